import Verif.Core
import Mathlib.Data.Rat.Defs
import Mathlib.Data.Rat.Floor
import Mathlib.Algebra.Order.Ring.Rat

/-!
# Specification: decimal numerals

What a text denotes, defined by reading it.
-/

namespace BS

/-- ASCII decimal digit. -/
def IsDigit (c : UInt8) : Prop := 48 ≤ c.toNat ∧ c.toNat ≤ 57

/-- Value of a digit string read from the left. -/
def digitsVal (l : Bytes) : Nat := l.foldl (fun a c => 10 * a + (c.toNat - 48)) 0

/-- Non-empty, digits only, no superfluous leading zero. -/
def IsNumeral (l : Bytes) : Prop := l ≠ [] ∧ (∀ c ∈ l, IsDigit c) ∧ (l.head? = some 48 → l = [48])

/-- The text is the decimal numeral of the integer. -/
def DenotesInt (l : Bytes) (i : Int) : Prop :=
  (0 ≤ i ∧ IsNumeral l ∧ (digitsVal l : Int) = i) ∨
  (i < 0 ∧ ∃ l', l = 45 :: l' ∧ IsNumeral l' ∧ (digitsVal l' : Int) = -i)

/-- An exponent part: none, or `e`, a sign and digits. -/
inductive ExpText : Bytes → Int → Prop where
  | none : ExpText [] 0
  | plus {l} (hn : l ≠ []) (hd : ∀ c ∈ l, IsDigit c) : ExpText (101 :: 43 :: l) (digitsVal l)
  | minus {l} (hn : l ≠ []) (hd : ∀ c ∈ l, IsDigit c) : ExpText (101 :: 45 :: l) (-(digitsVal l : Int))

/-- A fraction part: none, or a point and digits. -/
inductive FracText : Bytes → ℚ → Prop where
  | none : FracText [] 0
  | some {l} (hn : l ≠ []) (hd : ∀ c ∈ l, IsDigit c) :
      FracText (46 :: l) ((digitsVal l : ℚ) / 10 ^ l.length)

/-- The text is a decimal literal with exactly this value. -/
def DenotesQ (l : Bytes) (q : ℚ) : Prop :=
  ∃ (neg : Bool) (ip fp ep : Bytes) (f : ℚ) (e : Int),
    l = (if neg then [45] else []) ++ ip ++ fp ++ ep ∧
    IsNumeral ip ∧ FracText fp f ∧ ExpText ep e ∧
    q = (if neg then -1 else 1) * ((digitsVal ip : ℚ) + f) * (10 : ℚ) ^ e

end BS
