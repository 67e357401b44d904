import Verif.Spec.ConvertNames
/-
Which nodes have another sign in version 4 than in version 3.
-/
namespace Verif.VMapSpec
open Verif.Ids Verif.VMap

/-- The old field with this path has the opposite sign in the new version: by its label, or because it is listed. -/
def Flipped (labels : List (Path × Option (List Char))) (extra : List Path) (p : Path) : Prop :=
  (p, some "psi_like".toList) ∈ labels ∨ (p, some "dodpsi_like".toList) ∈ labels ∨ p ∈ extra

/-- Listed paths that the old version does not have are not in the new version either. Only data nodes are labelled and
listed, and no names or identifiers. -/
structure Signs (d : Dicts) (labels : List (Path × Option (List Char))) (extra : List Path) : Prop where
  known : ∀ p, Flipped labels extra p → Has d.new p → Has d.old p
  data : ∀ o ∈ d.old, Flipped labels extra o.path → ¬ Container o.dtype
  dataNew : ∀ f o, Claim d f o → Flipped labels extra o.path → ¬ Container f.dtype
  unnamed : ∀ g, Described d g → ¬ Flipped labels extra (g ++ [wName]) ∧ ¬ Flipped labels extra (g ++ [wIdentifier])

end Verif.VMapSpec
