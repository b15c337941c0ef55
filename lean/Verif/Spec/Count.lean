import Verif.Spec.Shuffle

/-!
# Specification vocabulary: how many
-/

namespace BS

/-- At most `k` byte strings have the property. -/
def AtMost (k : Nat) (P : Bytes → Prop) : Prop := ∃ l : List Bytes, l.length ≤ k ∧ ∀ s, P s → s ∈ l

/-- At least `k` byte strings have the property. -/
def AtLeast (k : Nat) (P : Bytes → Prop) : Prop := ∃ l : List Bytes, k ≤ l.length ∧ l.Nodup ∧ ∀ s ∈ l, P s

end BS
