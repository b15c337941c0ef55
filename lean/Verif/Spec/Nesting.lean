import Verif.Spec.JsonTree

/-!
# Specification: how deep brackets nest in a text
-/

namespace BS

/-- Opening brackets and braces. -/
def opens (s : Bytes) : Nat := s.count 91 + s.count 123

/-- Closing brackets and braces. -/
def closes (s : Bytes) : Nat := s.count 93 + s.count 125

/-- At no place of the text are more than `d` brackets open. -/
def NestsWithin (s : Bytes) (d : Nat) : Prop := ∀ n, opens (s.take n) ≤ closes (s.take n) + d

end BS
