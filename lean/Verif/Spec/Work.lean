import Verif.Calls
import Verif.Spec.Wiring

/-!
# Specification vocabulary: how many calls of `ExtractStr` an extraction makes
-/

namespace BS

/-- However large the budget, `ExtractStr` of stamp `i` on a blob that holds `bs` makes at most `c` calls of
`ExtractStr`, itself included, whatever its outcome. -/
def Works (G : Graph) (fl : Flags) (i : Id) (bs : Bytes) (c : Nat) : Prop :=
  ∀ b : Blob, Reachable b → Holds b bs → ∀ n, (extractW G n i (0, (fl, b))).2.1 ≤ c

end BS
