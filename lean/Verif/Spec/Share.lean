import Mathlib.Data.Set.Card
import Verif.Core

/-!
# Shares of a choice (used by C72)
-/

namespace BS

/-- How many of the byte strings of length `w` have the property. -/
noncomputable def tally (w : Nat) (P : Bytes → Prop) : Nat := {p : Bytes | p.length = w ∧ P p}.ncard

/-- `N` differs from `T / n` by at most `d`. -/
def Fair (T n d N : Nat) : Prop := T ≤ n * (N + d) ∧ n * N ≤ T + n * d

end BS
