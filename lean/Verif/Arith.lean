import Verif.Blob
import Verif.Print

/-!
# `StampArithm<T>` (include/blobstamper/stamp_arithm.h) and the derived extractors of
`StampBaseV<T>` / `StampBasePV<T>` (include/blobstamper/stamp.h 75-120)
-/

namespace BS
open BlobLike

/-- The arithmetic types of an LP64 little-endian platform. `char` and `signed char` are both `i8`
(x86-64), `long` and `long long` are both `i64`. `long double` is in `Verif/LongDouble.lean`.
[the `T`s of stamp_arithm.h 26] -/
inductive ArithTy where
  | i8 | u8 | i16 | u16 | i32 | u32 | i64 | u64 | float | double
deriving DecidableEq, Repr

namespace ArithTy

/-- `sizeof(T)` (stamp_arithm.h 29, 30, 45). -/
def size : ArithTy → Nat
  | i8 | u8 => 1
  | i16 | u16 => 2
  | i32 | u32 | float => 4
  | i64 | u64 | double => 8

/-- Is the type a signed integer type? [to_string_precise, helpers.h 32-71] -/
def isSigned : ArithTy → Bool
  | i8 | i16 | i32 | i64 => true
  | _ => false

/-- Is the type an integer type? [to_string_precise, helpers.h 32-98] -/
def isInt : ArithTy → Bool
  | float | double => false
  | _ => true

end ArithTy

/-- A value of an arithmetic type, the `T` of stamp_arithm.h 26; floating values by their bit pattern. -/
inductive AVal where
  | int (i : Int)
  | bits (b : Nat)
deriving DecidableEq, Repr

/-- Little-endian value of a byte string (stamp_arithm.h 46-47). -/
def leNat : Bytes → Nat
  | [] => 0
  | b :: bs => b.toNat + 256 * leNat bs

/-- Little-endian bytes of a number (stamp.h 118). -/
def leBytes : Nat → Nat → Bytes
  | 0, _ => []
  | n + 1, v => UInt8.ofNat (v % 256) :: leBytes n (v / 256)

/-- Reinterpret an object representation as a value of the type (stamp_arithm.h 46-47:
`T *pT = (T *) &v[0]; return *pT;`). -/
def decode (t : ArithTy) (b : Bytes) : AVal :=
  let n := leNat b
  if t.isInt then
    if t.isSigned ∧ 2 ^ (8 * t.size - 1) ≤ n then .int ((n : Int) - 2 ^ (8 * t.size)) else .int n
  else .bits n

/-- Object representation of a value (stamp.h 117-118: `(char *) &value ... + sizeof(T)`). -/
def encode (t : ArithTy) : AVal → Bytes
  | .int i => leBytes t.size (i % 2 ^ (8 * t.size)).toNat
  | .bits b => leBytes t.size b

/-- helpers.h 32-98: `to_string_precise`. `unsigned char`, `short`, `unsigned short` promote to
`int`. `char`/`signed char` use a buffer of 4 bytes (lines 61-69); `float` and `double` use
`__max_exponent10 + 999 + 20` bytes (lines 73-89). -/
def toStringPrecise (t : ArithTy) (v : AVal) : Out Bytes :=
  match t, v with
  | .i8, .int i => toXString 4 (intDec i)
  | .float, .bits b => toXString (38 + 999 + 20) (fmtG999 (decodeBits 8 23 b))
  | .double, .bits b => toXString (308 + 999 + 20) (fmtG999 (decodeBits 11 52 b))
  | _, .int i => .ok (intDec i)
  | _, .bits b => .ok (natDec b) -- not reachable: integer types decode to `int`

section
variable {β : Type} [BlobLike β]

/-- stamp_arithm.h 42-48: `ExtractValue`. -/
def extractValue (t : ArithTy) : M β AVal := do
  let c ← chop t.size
  let v ← M.lift (bytes c)
  pure (decode t v)

/-- stamp_arithm.h 35-40: `ExtractStr`. -/
def extractArithStr (t : ArithTy) : M β Bytes := do
  let v ← extractValue t
  M.lift (toStringPrecise t v)

/-- stamp.h 114-120: `StampBaseV<T>::ExtractBin`. -/
def extractArithBin (t : ArithTy) : M β Bytes := do
  let v ← extractValue t
  pure (encode t v)

/-- oracle.h 25-27: `ORACLE_STAMP().ExtractValue(blob)`, an `unsigned short`. -/
def oracle : M β Nat := do
  let v ← extractValue .u16
  match v with
  | .int i => pure i.toNat
  | .bits b => pure b

end
end BS
