import Verif.Arith

/-!
# `StampArithm<long double>`

The one arithmetic type that `ArithTy` leaves out: the x87 extended format, ten bytes of value and six
bytes of padding.
-/

namespace BS
open BlobLike

/-- `sizeof(long double)` on x86-64, so `minSize()` and `maxSize()` (stamp_arithm.h 29-30). -/
def longDoubleSize : Nat := 16

section
variable {β : Type} [BlobLike β]

/-- stamp_arithm.h 42-48: `ExtractValue`, as the 80 value bits. -/
def extractLongDouble : M β Nat := do
  let c ← chop longDoubleSize
  let v ← M.lift (bytes c)
  pure (leNat (v.take 10))

/-- helpers.h 91-98: `to_string_precise(long double)` prints with `"%.999g"`, without the `L`. A
conversion specification that does not fit the argument is undefined (C11 7.21.6.1 paragraph 9). -/
def longDoubleStr (_ : Nat) : Out Bytes := .ub .format

/-- stamp_arithm.h 35-40: `ExtractStr`. -/
def extractLongDoubleStr : M β Bytes := do
  let v ← extractLongDouble
  M.lift (longDoubleStr v)

end
end BS
