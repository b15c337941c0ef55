import Verif.Spec.Stamp

/-!
# Specification vocabulary: what an extraction leaves
-/

namespace BS

/-- The extraction ends with `o` and leaves the blob holding `left`, if the bound on its loops and calls is large enough. -/
def EndsLeaving {α : Type} (m : Nat → M Blob α) (b : Blob) (o : Out α) (left : Bytes) : Prop :=
  ∃ N, ∀ n ≥ N, ∃ b', m n b = (o, b') ∧ Holds b' left

/-- Of the bytes `bs` the extraction takes some and leaves `left`. It ends with `o` whatever it leaves, if that is as much. -/
def TakesOnly {α : Type} (m : Nat → M Blob α) (bs : Bytes) (o : Out α) (left : Bytes) : Prop :=
  ∃ took, bs = took ++ left ∧ ∀ b left', Reachable b → Holds b (took ++ left') → left'.length = left.length →
    EndsLeaving m b o left'

end BS
