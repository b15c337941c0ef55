import Verif.Spec.Numeral
import Mathlib.Algebra.Order.Group.Unbundled.Abs

/-!
# Specification: the shape of floating-point text
-/

namespace BS

/-- No fraction part, or a point and digits of which the last is not zero. -/
def FracShape (fp : Bytes) : Prop :=
  fp = [] ∨ ∃ l, fp = 46 :: l ∧ l ≠ [] ∧ (∀ c ∈ l, IsDigit c) ∧ l.getLast? ≠ some 48

/-- Plain notation: digits and perhaps a fraction. -/
def FixedShape (l : Bytes) : Prop := ∃ ip fp, l = ip ++ fp ∧ IsNumeral ip ∧ FracShape fp

/-- Scientific notation with a negative exponent: one nonzero digit, perhaps a fraction, `e-`, and at
least two digits, of which the first is zero only if there are just two. -/
def SmallShape (l : Bytes) : Prop :=
  ∃ d fp x, l = d :: (fp ++ 101 :: 45 :: x) ∧ IsDigit d ∧ d ≠ 48 ∧ FracShape fp ∧
    (∀ c ∈ x, IsDigit c) ∧ 2 ≤ x.length ∧ (x.head? = some 48 → x.length = 2)

/-- What must precede and make up the text of a value: a minus sign for a set sign bit; then `0` for zero,
plain notation from `10^-4` on, scientific notation below. -/
def FloatShape (l : Bytes) (s : Nat) (v : ℚ) : Prop :=
  ∃ body, l = (if s = 1 then [45] else []) ++ body ∧ (v = 0 → body = [48]) ∧
    (1 / 10000 ≤ |v| → FixedShape body) ∧ (0 < |v| → |v| < 1 / 10000 → SmallShape body)

end BS
