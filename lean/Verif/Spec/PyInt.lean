/-!
Texts that Python's `int` accepts (ASCII only).
-/
namespace Verif.PyIntSpec

/-- White space around a number. -/
def White (c : Char) : Prop :=
  c ∈ [' ', '\t', '\n', '\x0b', '\x0c', '\r', '\x1c', '\x1d', '\x1e', '\x1f']

/-- Decimal digits, with single underscores between them. -/
inductive Digits : List Char → List Nat → Prop
  | last {c} : c.isDigit = true → Digits [c] [c.toNat - 48]
  | next {c t ds} : c.isDigit = true → Digits t ds → Digits (c :: t) ((c.toNat - 48) :: ds)
  | underscore {c t ds} : c.isDigit = true → Digits t ds → Digits (c :: '_' :: t) ((c.toNat - 48) :: ds)

/-- The number with these decimal digits. -/
def value (ds : List Nat) : Nat := ds.foldl (fun n d => 10 * n + d) 0

/-- The sign of a number. -/
inductive Sign : List Char → Int → Prop
  | none : Sign [] 1
  | plus : Sign ['+'] 1
  | minus : Sign ['-'] (-1)

/-- The text of a number: white space, a sign, at most 4300 digits, white space. -/
def WritesInt (s : List Char) (n : Int) : Prop :=
  ∃ l sign k body ds r, s = l ++ sign ++ body ++ r ∧ (∀ c ∈ l, White c) ∧ (∀ c ∈ r, White c) ∧ Sign sign k ∧
    Digits body ds ∧ ds.length ≤ 4300 ∧ n = k * (value ds : Int)

end Verif.PyIntSpec
