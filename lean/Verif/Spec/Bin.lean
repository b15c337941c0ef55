import Verif.Bin
import Verif.Spec.Galley
import Verif.Spec.Arith

/-!
# Specification vocabulary for galleys of binary and typed values
-/

namespace BS

/-- The galley ends with `o`, and leaves the blob holding `left`. -/
def GalleyEnds {α : Type} (m : Nat → M Blob α) (b : Blob) (o : Out α) (left : Bytes) : Prop :=
  ∃ b', (∃ N, ∀ n ≥ N, m n b = (o, b')) ∧ Holds b' left

/-- What an extraction gives on a new blob over exactly these bytes. -/
def onNew {α : Type} (m : M Blob α) (p : Bytes) : Out α := (m (Blob.mk' (.at p 0) p.length)).1

end BS
