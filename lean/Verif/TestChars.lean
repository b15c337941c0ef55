import Verif.Bin

/-!
# The stamps of t/test-chars-stamps.h
-/

namespace BS
open BlobLike

/-- test-chars-stamps.h 33-47 and 61-74: `Chop(minSize(), maxSize())`, its bytes copied into a buffer with a NUL
after them, and a `std::string` made from the buffer as a C string: it ends before the first NUL. -/
def charsV {β : Type} [BlobLike β] (mn mx : Nat) : M β Bytes := do
  let c ← chop2 mn mx
  let v ← M.lift (bytes c)
  pure ((v ++ [0]).takeWhile (· ≠ 0))

/-- test-chars-stamps.h 23-30: `StampTwoChars`. -/
def twoCharsV {β : Type} [BlobLike β] : M β Bytes := charsV 2 2

/-- test-chars-stamps.h 50-56: `StampSeveralChars`. -/
def severalCharsV {β : Type} [BlobLike β] : M β Bytes := charsV 2 8

/-- The same stamps as objects other stamps can be built on. [test-chars-stamps.h 23-74] -/
def charsStamp (mn mx : Nat) : UserStamp where
  mn := mn
  mx := mx
  recursive := false
  behave v := if v.length < mn then (.outOfData, 0) else (.ok ((v.take mx).takeWhile (· ≠ 0)), min mx v.length)

/-- test-chars-stamps.h 77-105: `StampTwoCharsList`, object 0, over a `GalleyVectorStr` of `StampTwoChars`, object 1.
Its `minSize()` is that of the galley's stamp and its loop is that of `StampStrEnumerator`. -/
def twoCharsList : Graph
  | 0 => some (.enumerator 1 (str ", ") (str "(") (str ")"))
  | 1 => some (.user (charsStamp 2 2))
  | _ => none

end BS
