import Verif.Model.Metadata
import Verif.Spec.Path
/-! Specification of Data Dictionary trees and of positions in them. -/
namespace Verif.DDSpec
open Verif.DD Verif.Ids
open Verif.PathSpec (FieldName)

/-- `y` is a child of `x`. -/
def Child (x y : Xml) : Prop := y ∈ x.kids.toList

/-- The name of an element. -/
def Named (x : Xml) (n : Name) : Prop := x.get "name".toList = some n

/-- `y` is reached from `x` by descending to the children of the given names. -/
inductive Reach : Xml → List Name → Xml → Prop
  | nil {x : Xml} : Reach x [] x
  | cons {x y z : Xml} {n : Name} {ns : List Name} (hc : Child x y) (hn : Named y n)
      (h : Reach y ns z) : Reach x (n :: ns) z

/-- Names separated by `/`. -/
def slashed : List Name → Text
  | [] => []
  | [n] => n
  | n :: m :: r => n ++ '/' :: slashed (m :: r)

/-- `text` lists the names separated by `/` or `.`. -/
inductive Written : List Name → Text → Prop
  | one {n : Name} : Written [n] n
  | more {n : Name} {ns : List Name} {t : Text} {sep : Char} (hs : sep = '/' ∨ sep = '.')
      (h : Written ns t) : Written (n :: ns) (n ++ sep :: t)

mutual
/-- A well-formed Data Dictionary element whose children have the paths starting with `here`:
all descendants have Data Dictionary names, siblings have different names, and the `path`
attribute of each descendant lists the names from the top. -/
inductive WFXml : List Name → Xml → Prop
  | mk {here : List Name} {t : Name} {a : List (Name × Text)} {k : Xmls}
      (h : WFXmls here [] k) : WFXml here (.mk t a k)
/-- The same for a list of siblings, of which the names `seen` occur earlier. -/
inductive WFXmls : List Name → List Name → Xmls → Prop
  | nil {here seen : List Name} : WFXmls here seen .nil
  | cons {here seen : List Name} {x : Xml} {r : Xmls} {n : Name} (hn : Named x n)
      (hf : FieldName n) (hs : n ∉ seen) (hp : x.get "path".toList = some (slashed (here ++ [n])))
      (hx : WFXml (here ++ [n]) x) (hr : WFXmls here (n :: seen) r) :
      WFXmls here seen (.cons x r)
end

/-! ### Positions -/

/-- The `i`-th child. -/
def nth : Xmls → Nat → Option Xml
  | .nil, _ => none
  | .cons x _, 0 => some x
  | .cons _ r, i + 1 => nth r i

/-- The element at a position, given as list of child numbers. -/
def Xml.at : Xml → List Nat → Option Xml
  | x, [] => some x
  | x, i :: p =>
    match nth x.kids i with
    | none => none
    | some y => Xml.at y p

/-- Document order of positions: an element comes before its descendants, and a child with all
its descendants before the next child. -/
inductive Before : List Nat → List Nat → Prop
  | root {i : Nat} {p : List Nat} : Before [] (i :: p)
  | left {i j : Nat} {p q : List Nat} (h : i < j) : Before (i :: p) (j :: q)
  | down {i : Nat} {p q : List Nat} (h : Before p q) : Before (i :: p) (i :: q)

end Verif.DDSpec
