/-!
What a table of timings is to show (C81).
-/
namespace Verif.TimerSpec

variable {L : Type} [DecidableEq L]

/-- `l` has what occurs in `xs`, once, in the order in which it occurs first. -/
structure Firsts (xs l : List L) : Prop where
  once : l.Nodup
  mem : ∀ x, x ∈ l ↔ x ∈ xs
  order : l.Pairwise fun a b => xs.idxOf a < xs.idxOf b

/-- What was timed for a column and a row: the duration of the last section with these labels, if any. -/
inductive Last (done : List (L × L × Int)) (c r : L) : Option Int → Prop
  | timed {before after : List (L × L × Int)} {d : Int} (e : done = before ++ (c, r, d) :: after) (h : ∀ d', (c, r, d') ∉ after) :
    Last done c r (some d)
  | never (h : ∀ d, (c, r, d) ∉ done) : Last done c r none

end Verif.TimerSpec
