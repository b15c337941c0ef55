import Verif.Graph
import Verif.Spec.Blob

/-!
# Specification vocabulary for stamps

Fuel-free reading of the model: a call has a result when every sufficiently large step budget gives
that result, and diverges when every budget runs out.
-/

namespace BS

/-- `minSize()` (or `maxSize()`) of object `i`, called with flags `fl`, returns `v` and leaves
flags `fl'`. -/
def SizeRuns (G : Graph) (fl : Flags) (sel : Sel) (i : Id) (v : Int) (fl' : Flags) : Prop :=
  ∃ N, ∀ n ≥ N, sizeQ G n sel i fl = (.ok v, fl')

/-- `minSize()` of object `i` returns `v`, changing nothing. -/
def HasMin (G : Graph) (fl : Flags) (i : Id) (v : Int) : Prop := SizeRuns G fl .min i v fl

/-- `maxSize()` of object `i` returns `v`, changing nothing. -/
def HasMax (G : Graph) (fl : Flags) (i : Id) (v : Int) : Prop := SizeRuns G fl .max i v fl

/-- `ExtractStr` of object `i` on blob `b` ends with outcome `o`, leaving blob `b'`. -/
def Extracts {β : Type} [BlobLike β] (G : Graph) (fl : Flags) (i : Id) (b : β) (o : Out Bytes)
    (fl' : Flags) (b' : β) : Prop :=
  ∃ N, ∀ n ≥ N, extract G n i (fl, b) = (o, (fl', b'))

/-- `ExtractStr` of object `i` on blob `b` never ends. -/
def Diverges {β : Type} [BlobLike β] (G : Graph) (fl : Flags) (i : Id) (b : β) : Prop :=
  ∀ n, (extract G n i (fl, b)).1 = .fuel

/-- A blob whose bytes have been used up to `k`: `ExtractStr` returns `s` and leaves `bs.drop k`. -/
def Returns (G : Graph) (fl : Flags) (i : Id) (b : Blob) (s : Bytes) (left : Bytes) : Prop :=
  ∃ b', Extracts G fl i b (.ok s) fl b' ∧ Holds b' left

/-- `ExtractStr` throws `OutOfData` and leaves the blob holding `left`. -/
def Throws (G : Graph) (fl : Flags) (i : Id) (b : Blob) (left : Bytes) : Prop :=
  ∃ b', Extracts G fl i b .outOfData fl b' ∧ Holds b' left

/-- On every blob that holds `p`, `ExtractStr` of object `i` returns `x`. -/
def Gives (G : Graph) (fl : Flags) (i : Id) (p x : Bytes) : Prop :=
  ∃ left, ∀ b, Reachable b → Holds b p → Returns G fl i b x left

/-- `ExtractStr` of `i` on a blob holding `bs` does whatever `ExtractStr` of `j` does on a blob
holding `rest`. -/
def Delegates (G : Graph) (fl : Flags) (i : Id) (bs : Bytes) (j : Id) (rest : Bytes) : Prop :=
  ∀ b b1, Reachable b → Holds b bs → Reachable b1 → Holds b1 rest →
    (∀ s left, Returns G fl i b s left ↔ Returns G fl j b1 s left) ∧
    (∀ left, Throws G fl i b left ↔ Throws G fl j b1 left)

end BS
