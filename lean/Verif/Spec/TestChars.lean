import Verif.Blob

/-!
# Specification vocabulary: C strings
-/

namespace BS

/-- `s` is what a C string over the bytes `p` followed by a NUL holds. -/
def CText (p s : Bytes) : Prop := 0 ∉ s ∧ (s = p ∨ ∃ rest, p = s ++ 0 :: rest)

end BS
