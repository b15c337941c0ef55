import Verif.Spec.Stamp

/-!
# Specification: how deep the calls go
-/

namespace BS

/-- On every blob holding `bs`, `ExtractStr` of stamp `i` ends with at most `n` calls of stamps inside one another
(`ExtractStr`, `minSize()`, `maxSize()`) and at most `n` rounds of any loop of a galley. -/
def Within (G : Graph) (fl : Flags) (i : Id) (bs : Bytes) (n : Nat) : Prop :=
  ∀ b : Blob, Reachable b → Holds b bs → (extract G n i (fl, b)).1 ≠ .fuel

/-- `s` inside `d` pairs of square brackets. -/
def nested (d : Nat) (s : Bytes) : Bytes := List.replicate d 91 ++ s ++ List.replicate d 93

end BS
