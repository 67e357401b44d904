import Verif.Model.Primitive
/-
Model of identifiers: `imas/ids_identifiers.py` and `IDSStructure._assign_identifier`
(`imas/ids_structure.py` lines 70-96).
-/
namespace Verif.Ids

/-- A member of an identifier enum (`ids_identifiers.py` lines 18-29). `name` is the name
Python's `Enum` gives it. -/
structure Member where
  name : Name
  index : Int
  description : List Char
  aliases : List Name
  deriving DecidableEq, Repr

/-- One `<int>` element of the identifier XML (lines 72-79): name, value, description and the
non-empty stripped parts of the comma separated alias attribute. Splitting and stripping the
attribute text is not modelled. -/
structure XmlInt where
  name : Name
  value : Int
  description : List Char
  aliases : List Name
  deriving DecidableEq, Repr

/-- What `enum_values` stores for a name. -/
abbrev EnumValue := Int × List Char × List Name

/-- `enum_values[name] = v` on a Python dict: an existing key keeps its place. -/
def dictSet (d : List (Name × EnumValue)) (k : Name) (v : EnumValue) : List (Name × EnumValue) :=
  match d with
  | [] => [(k, v)]
  | (k', v') :: r => if k' = k then (k, v) :: r else (k', v') :: dictSet r k v

/-- The loop of `_from_xml` (lines 72-84). -/
def enumValues (xml : List XmlInt) : List (Name × EnumValue) :=
  xml.foldl (fun d e =>
    e.aliases.foldl (fun d a => dictSet d a (e.value, e.description, e.aliases))
      (dictSet d e.name (e.value, e.description, e.aliases))) []

/-- An enum class: all its names with the member each one stands for. -/
abbrev IdEnum := List (Name × Member)

/-- Creation of the class by Python's `Enum` (line 86): a name whose value occurred before is
an alias of the earlier member. -/
def mkEnum : List (Name × EnumValue) → IdEnum → IdEnum
  | [], acc => acc
  | (n, v, d, as) :: r, acc =>
    match acc.find? (fun p => p.2.index = v) with
    | some p => mkEnum r (acc ++ [(n, p.2)])
    | none => mkEnum r (acc ++ [(n, ⟨n, v, d, as⟩)])

/-- `IDSIdentifier._from_xml` (lines 68-92). -/
def IdEnum.fromXml (xml : List XmlInt) : IdEnum := mkEnum (enumValues xml) []

/-- `enum[name]`. -/
def IdEnum.byName (e : IdEnum) (n : Name) : Option Member := (e.find? (·.1 = n)).map (·.2)

/-- `enum(value)`. -/
def IdEnum.byIndex (e : IdEnum) (i : Int) : Option Member := (e.find? (·.2.index = i)).map (·.2)

/-- The data nodes of an identifier structure: `name` and `description` (STR_0D) and `index`
(INT_0D), with their stored values. -/
structure IdStruct (F : Type) where
  name : Option (Val F)
  index : Option (Val F)
  description : Option (Val F)

def strMeta : LeafMeta := ⟨.str, 0, false⟩
def intMeta : LeafMeta := ⟨.int, 0, false⟩

/-- What can be assigned: a member of an enum (with the identity of its class), a string or an
integer. -/
inductive IdInput where
  | member (enum : Nat) (m : Member)
  | name (s : Name)
  | index (i : Int)

/-- Exceptions of `_assign_identifier`. -/
inductive IdErr where
  | typeError     -- not an identifier structure, or a member of another enum
  | valueError    -- no such name or index
  | readOnly      -- lazy loaded
  deriving DecidableEq, Repr

section
variable {F : Type} [FloatModel F]

/-- `_assign_identifier` (`ids_structure.py` lines 70-96). `enum` is the identity and content
of `metadata.identifier_enum`. The result contains the state of the structure also when an
assignment fails half way. -/
def assignIdentifier (cv : Conv F) (lazy : Bool) (enum : Option (Nat × IdEnum))
    (s : IdStruct F) (v : IdInput) : IdStruct F × Option IdErr :=
  match enum with
  | none => (s, some .typeError)
  | some (id, e) =>
    let found : Except IdErr Member :=
      match v with
      | .member id' m => if id' = id then .ok m else .error .typeError
      | .index i => match e.byIndex i with
        | some m => .ok m
        | none => .error .valueError
      | .name n => match e.byName n with
        | some m => .ok m
        | none => .error .valueError
    match found with
    | .error err => (s, some err)
    | .ok m =>
      match setValue cv lazy strMeta (.val (.str m.name)) with
      | .error _ => (s, some .readOnly)
      | .ok n =>
        let s := { s with name := n }
        match setValue cv lazy intMeta (.val (.int m.index)) with
        | .error _ => (s, some .readOnly)
        | .ok i =>
          let s := { s with index := i }
          match setValue cv lazy strMeta (.val (.str m.description)) with
          | .error _ => (s, some .readOnly)
          | .ok d => ({ s with description := d }, none)

/-- `IDSIdentifier.__eq__` (`ids_identifiers.py` lines 31-65) with an identifier structure:
the description only matters for a warning. -/
def Member.eqStruct (m : Member) (s : IdStruct F) : Bool :=
  match readValue strMeta s.name, readValue intMeta s.index with
  | .str name, .int index =>
    if index = m.index then name = m.name || name = [] || m.aliases.contains name
    else false
  | _, _ => false

end
end Verif.Ids
