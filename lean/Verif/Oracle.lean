import Verif.Float

/-!
# `OracleProportion` (src/oracle.cpp 23-36)
-/

namespace BS

/-- oracle.cpp 23-36.
`delta = max - min + 1` in `size_t`; `(float) oracle / ((float) ORACLE_MAX + 1) * delta` in binary32;
`floor`; conversion to `size_t` (undefined if it does not fit); `min + res` in `size_t`. -/
def oracleProportion (o mn mx : Nat) : Out Nat :=
  let delta := toSz ((mx : Int) - mn + 1)
  let ratio := FV.div f32 (FV.ofInt f32 o) (FV.add f32 (FV.ofInt f32 65535) (FV.ofInt f32 1))
  let x := FV.floor (FV.mul f32 ratio (FV.ofInt f32 delta))
  (FV.toIntRange 0 (W64 - 1) x).bind fun r => .ok (toSz ((mn : Int) + r))

end BS
