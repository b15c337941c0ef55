import Verif.Spec.Numeral
import Verif.Arith

/-!
# Specification: object representations of arithmetic values
-/

namespace BS

/-- The number written by bytes in little-endian order. -/
def littleEndian (bs : Bytes) : Nat := (bs.mapIdx fun k b => b.toNat * 256 ^ k).sum

/-- `sizeof(T)` on LP64. -/
def sizeofT : ArithTy → Nat
  | .i8 => 1
  | .u8 => 1
  | .i16 => 2
  | .u16 => 2
  | .i32 => 4
  | .u32 => 4
  | .i64 => 8
  | .u64 => 8
  | .float => 4
  | .double => 8

/-- Least and greatest value of the integer types on LP64. -/
def intRange : ArithTy → Option (Int × Int)
  | .i8 => some (-128, 127)
  | .u8 => some (0, 255)
  | .i16 => some (-32768, 32767)
  | .u16 => some (0, 65535)
  | .i32 => some (-2147483648, 2147483647)
  | .u32 => some (0, 4294967295)
  | .i64 => some (-9223372036854775808, 9223372036854775807)
  | .u64 => some (0, 18446744073709551615)
  | .float => none
  | .double => none

/-- The value of an arithmetic type whose object representation is `bs`: two's complement for
integers, the bit pattern itself for floating types. -/
def HasRepr (t : ArithTy) (v : AVal) (bs : Bytes) : Prop :=
  match v with
  | .int i => ∃ lo hi, intRange t = some (lo, hi) ∧ lo ≤ i ∧ i ≤ hi ∧
      (256 ^ sizeofT t : Int) ∣ i - littleEndian bs
  | .bits n => intRange t = none ∧ n = littleEndian bs

/-- The real value of the finite binary64 number with sign bit `s`, exponent field `e` and fraction
field `m` (IEEE 754-2008, 3.4). -/
def doubleValue (s e m : Nat) : ℚ :=
  (-1) ^ s * (if e = 0 then (m : ℚ) / 2 ^ 52 * 2 ^ (-1022 : Int)
    else (1 + (m : ℚ) / 2 ^ 52) * 2 ^ ((e : Int) - 1023))

/-- The same for binary32. -/
def floatValue (s e m : Nat) : ℚ :=
  (-1) ^ s * (if e = 0 then (m : ℚ) / 2 ^ 23 * 2 ^ (-126 : Int)
    else (1 + (m : ℚ) / 2 ^ 23) * 2 ^ ((e : Int) - 127))

end BS
