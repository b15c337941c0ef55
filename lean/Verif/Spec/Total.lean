import Verif.Spec.Asking
import Verif.Spec.Calls

/-!
# Specification vocabulary: all calls of an extraction
-/

namespace BS

/-- Every size query of a stamp, or of a stamp used by one, returns, and makes at most `S` calls. -/
def Priced (G : Graph) (fl : Flags) (S : Nat) : Prop :=
  ∀ j, (G j ≠ none ∨ ∃ i, Edge G i j) → ∀ sel, ∃ v c, c ≤ S ∧ SizeRuns G fl sel j v fl ∧ Costs G fl sel j c

/-- No set, pool picker or lottery has more than `w` stamps. -/
def WithinWidth (w : Nat) (G : Graph) : Prop :=
  ∀ i nd, G i = some nd → match nd with
    | .set cs _ _ => cs.length ≤ w
    | .picker pool => pool.length ≤ w
    | .lottery _ stamps _ _ _ => stamps.length ≤ w
    | _ => True

/-- `ExtractStr` of stamp `i` on a blob that holds `bs` ends, after at most `c` calls of `ExtractStr`, `minSize()` and
`maxSize()` together, itself included, whatever its outcome. -/
def TotalAtMost (G : Graph) (fl : Flags) (i : Id) (bs : Bytes) (c : Nat) : Prop :=
  ∀ b : Blob, Reachable b → Holds b bs → ∃ N, ∀ n ≥ N, ∃ o k s, o ≠ .fuel ∧ k ≤ c ∧ extractA G n i (0, (fl, b)) = (o, (k, s))

end BS
