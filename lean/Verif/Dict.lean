import Verif.Arith
import Verif.DictData

/-!
# `StampDict` (src/stamp_dict.cpp, include/blobstamper/stamp_dict.h) and the text stamps
(src/stamp_text.cpp 21-55, include/blobstamper/stamp_text.h 27-41)
-/

namespace BS
open BlobLike

/-- The scaling `((double) oracle) / oracle_max * n` converted to `long long`, with
`if (index == n) index--` (stamp_dict.cpp 78-79, stamp_lottery.h 203-204). The comparison is done in
`unsigned long`, so the `long long` is converted. -/
def scaledIndex (o omax n : Nat) : Out Int :=
  let x := FV.mul f64 (FV.div f64 (FV.ofInt f64 o) (FV.ofInt f64 omax)) (FV.ofInt f64 n)
  (FV.toIntRange (-9223372036854775808) 9223372036854775807 x).bind fun i =>
    .ok (if toSz i = n then i - 1 else i)

/-- `std::vector::operator[]` with a `size_t` index (dict.cpp 31, stamp_json.cpp 100, stamp_lottery.h 206):
outside the vector is undefined. -/
def vecGet {α : Type} (l : List α) (i : Int) : Out α :=
  match l[toSz i]? with
  | some a => .ok a
  | none => .ub .oob

/-- Width of an oracle to its type (stamp_dict.cpp 52-77, stamp_lottery.h 146-178). -/
def uOracleTy : Nat → Option ArithTy
  | 1 => some .u8
  | 2 => some .u16
  | 4 => some .u32
  | 8 => some .u64
  | _ => none

/-- An unsigned oracle of 1, 2, 4 or 8 bytes; any other width ends the program
(stamp_dict.cpp 51-77 `exit(1)`, stamp_lottery.h 146-178 `abort()`). -/
def uOracle {β : Type} [BlobLike β] (width : Nat) : M β Nat :=
  match uOracleTy width with
  | none => M.out .abort
  | some ty => do
    let v ← extractValue ty
    match v with
    | .int i => pure i.toNat
    | .bits b => pure b

/-- stamp_dict.cpp 24-44: `ChooseStampSize`: width of the index oracle and its largest value.
The third test compares with `UINT_MAX + 1`, which is 0 in `unsigned int`. -/
def chooseStampSize (n : Nat) : Nat × Nat :=
  if n ≤ 256 then (1, 255)
  else if n ≤ 65536 then (2, 65535)
  else if n ≤ 0 then (4, 4294967295)
  else (8, W64 - 1)

/-- stamp_dict.cpp 46-81: `StampDict::ExtractStr`. -/
def extractDict {β : Type} [BlobLike β] (ws : List Bytes) : M β Bytes := do
  let o ← uOracle (chooseStampSize ws.length).1
  let i ← M.lift (scaledIndex o (chooseStampSize ws.length).2 ws.length)
  M.lift (vecGet ws i)

/-- stamp_text.cpp 30-34: NUL becomes a space. -/
def latin1Char (c : UInt8) : UInt8 := if c = 0 then 32 else c

/-- stamp_text.cpp 48-53: clear the top bit, then NUL becomes a space. -/
def asciiChar (c : UInt8) : UInt8 :=
  let d := c &&& 0x7F
  if d = 0 then 32 else d

/-- stamp_text.cpp 21-37 and 39-55: `Chop(minSize(), maxSize())` with 1 and -1 (as `size_t`), then
every byte mapped. -/
def extractText {β : Type} [BlobLike β] (f : UInt8 → UInt8) : M β Bytes := do
  let c ← chop2 1 (toSz (-1))
  let v ← M.lift (bytes c)
  pure (v.map f)

/-- stamp_json.cpp 155-160: `StampJSONString::ExtractStr`. -/
def extractJsonStr {β : Type} [BlobLike β] : M β Bytes := do
  let w ← extractDict lcAlphaSmall
  pure ([34] ++ w ++ [34])

end BS
