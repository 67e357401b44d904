import Verif.Model.Provenance
/-! Specification vocabulary for provenance entries. -/
namespace Verif.ProvenanceSpec
open Verif.Provenance

/-- All entries, with the path they are about. -/
def entries (p : Props) : List (Text × Text) :=
  p.nodes.flatMap fun n => (n.references.map fun r => (n.path, r.name)) ++ n.sources.map (n.path, ·)

/-- `l'` is `l` with one element inserted somewhere. -/
def Inserted {A : Type} (a : A) (l l' : List A) : Prop := ∃ u v, l = u ++ v ∧ l' = u ++ a :: v

/-- `t` occurs in `s`. -/
def Contains (s t : Text) : Prop := ∃ u v, s = u ++ t ++ v

end Verif.ProvenanceSpec
