import Verif.Asking
import Verif.Spec.Wiring

/-!
# Specification vocabulary: extraction call by call
-/

namespace BS

/-- `ExtractStr`, with every question of the code, ends with outcome `o`, leaving flags `fl'` and blob `b'`. -/
def ExtractsAsking {β : Type} [BlobLike β] (G : Graph) (fl : Flags) (i : Id) (b : β) (o : Out Bytes)
    (fl' : Flags) (b' : β) : Prop :=
  ∃ N, ∀ n ≥ N, ∃ k, extractA G n i (0, (fl, b)) = (o, (k, (fl', b')))

/-- No size query of a stamp, or of a stamp used by one, is undefined. -/
def SizesDefined (G : Graph) (fl : Flags) : Prop :=
  ∀ j, (G j ≠ none ∨ ∃ i, Edge G i j) → ∀ sel n r, (sizeQ G n sel j fl).1 ≠ .ub r

end BS
