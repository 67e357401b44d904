/-!
Model of the provenance part of conversions: `_add_provenance_entry` and the end of
`convert_ids` (`/repo/imas/ids_convert.py` lines 617-668) and `_ids_properties_source`
(lines 1159-1172).

`ids_properties/provenance` is represented by the list of its `node` elements. All elements have
the same type, that of the Data Dictionary version of the target: they store their entries in the
array of structures `reference` (with `name` and `timestamp`), or in the list of strings `sources`.
-/
namespace Verif.Provenance

abbrev Text := List Char

/-- An element of `reference`. -/
structure Ref where
  name : Text
  timestamp : Text
  deriving DecidableEq, Repr

/-- An element of `provenance/node`. An unset `path` reads as the empty text. `references` is used
if the version has `reference`, and `sources` otherwise. -/
structure PNode where
  path : Text
  references : List Ref
  sources : List Text
  deriving DecidableEq, Repr

/-- A new element. -/
def PNode.fresh : PNode := ⟨[], [], []⟩

/-- `ids_properties` of an IDS as far as it matters here. `hasProvenance` and `hasReference`
tell which nodes exist in this version. -/
structure Props where
  hasProvenance : Bool
  hasReference : Bool
  nodes : List PNode
  deriving DecidableEq, Repr

/-- Lines 654-660: the text of the entry. `by_` is `imas.__version__`. -/
def entryText (uri source target by_ : Text) : Text :=
  uri ++ "; This IDS has been converted from DD ".toList ++ source ++ " to DD ".toList ++ target ++
    " by IMAS-Python ".toList ++ by_ ++ ".".toList

/-- Lines 661-668: populate a node. -/
def populate (hasReference : Bool) (text now : Text) (n : PNode) : PNode :=
  if hasReference then { n with references := n.references ++ [⟨text, now⟩] }
  else { n with sources := n.sources ++ [text] }

/-- Lines 643-652: change the first node for the whole IDS, or a new one at the end. -/
def onWhole (f : PNode → PNode) : List PNode → List PNode
  | [] => [f PNode.fresh]
  | n :: r => if n.path = [] then f n :: r else n :: onWhole f r

/-- `_add_provenance_entry` (lines 632-668). -/
def addEntry (p : Props) (source target by_ uri now : Text) : Props :=
  if p.hasProvenance then
    { p with nodes := onWhole (populate p.hasReference (entryText uri source target by_) now) p.nodes }
  else p

/-- The end of `convert_ids` (lines 625-628). -/
def finishConversion (p : Props) (source target by_ uri now : Text) : Props :=
  if uri ≠ [] then addEntry p source target by_ uri now else p

/-- `_ids_properties_source` (lines 1159-1172): migrate `ids_properties/source`. The target is of
version 4 and has `reference`. -/
def migrateSource (source : Text) (p : Props) : Props :=
  if p.nodes.length > 0 then p
  else { p with nodes := [{ PNode.fresh with references := [⟨source, []⟩] }] }

end Verif.Provenance
