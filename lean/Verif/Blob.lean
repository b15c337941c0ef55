import Verif.Core

/-!
# `Blob` (src/blob.cpp, include/blobstamper/blob.h)
-/

namespace BS

/-- A `char *` (`Blob::data`, blob.h 33): null, or a position inside (or one past) an allocated buffer. -/
inductive Ptr where
  | null
  | at (buf : Bytes) (off : Nat)
deriving DecidableEq, Repr

/-- `p + j` for a `size_t` j (`data + begin`, blob.cpp 45, 57, 79, 95, 101, 109): defined only inside the array or one past its end. -/
def Ptr.add : Ptr → Nat → Out Ptr
  | .null, j => if j = 0 then .ok .null else .ub .ptrArith
  | .at b o, j => if o + j ≤ b.length then .ok (.at b (o + j)) else .ub .ptrArith

/-- Read `n` bytes starting at a pointer (blob.cpp 95, 109). -/
def Ptr.read : Ptr → Nat → Out Bytes
  | .null, n => if n = 0 then .ok [] else .ub .nullDeref
  | .at b o, n => if o + n ≤ b.length then .ok ((b.drop o).take n) else .ub .oob

/-- The bytes from `p` to `q` as an iterator range (blob.cpp 79, 101); both must lie in the same array. -/
def Ptr.range : Ptr → Ptr → Out Bytes
  | .null, .null => .ok []
  | .at b o, .at b' o' => if b = b' ∧ o ≤ o' then Ptr.read (.at b o) (o' - o) else .ub .oob
  | _, _ => .ub .ptrArith

/-- blob.h 30-36: `char* data; size_t begin; size_t end;` -/
structure Blob where
  data : Ptr
  beg : Nat
  fin : Nat
deriving DecidableEq, Repr

namespace Blob

/-- blob.cpp 27-32: constructor. `end = size_in - 1` wraps for size 0. -/
def mk' (p : Ptr) (sizeIn : Nat) : Blob := ⟨p, 0, toSz ((sizeIn : Int) - 1)⟩

/-- blob.cpp 34-39. -/
def isEmpty (b : Blob) : Bool :=
  match b.data with
  | .null => true
  | .at _ _ => false

/-- blob.cpp 83-87: `end - begin + 1` in `size_t`. -/
def size (b : Blob) : Nat := toSz ((b.fin : Int) - b.beg + 1)

/-- blob.cpp 49-61: `Chop(size_t)`. -/
def chop (n : Nat) : M Blob Blob := fun b =>
  if b.size < n then (.outOfData, b)
  else match b.data.add b.beg with
    | .ok p => (.ok (mk' p n), { b with beg := toSz ((b.beg : Int) + n) })
    | .ub r => (.ub r, b)
    | _ => (.abort, b)

/-- blob.cpp 63-74: `Chop(size_t, size_t)`. -/
def chop2 (mn mx : Nat) : M Blob Blob := fun b =>
  if b.size < mn then (.outOfData, b)
  else if mx ≤ b.size then chop mx b
  else chop b.size b

/-- blob.cpp 76-81: `std::vector<char> res(data + begin, data + end + 1)`. -/
def asByteVector (b : Blob) : Out Bytes :=
  (b.data.add b.beg).bind fun p =>
  (b.data.add b.fin).bind fun q =>
  (q.add 1).bind fun q' => Ptr.range p q'

/-- blob.cpp 98-103: `std::vector<char> res(data + begin, data + begin + Size())`. -/
def asVector (b : Blob) : Out Bytes :=
  (b.data.add b.beg).bind fun p =>
  (p.add b.size).bind fun q => Ptr.range p q

/-- blob.cpp 106-111: `std::string res(data + begin, Size())`. -/
def asString (b : Blob) : Out Bytes :=
  (b.data.add b.beg).bind fun p => p.read b.size

/-- blob.cpp 89-96: `DataDup`; the result is the copied buffer and `size_out`.
`memcpy` from a null pointer is undefined even for zero bytes. -/
def dataDup (b : Blob) : Out (Bytes × Nat) :=
  (b.data.add b.beg).bind fun p =>
    match p with
    | .null => .ub .nullDeref
    | p => (p.read b.size).bind fun v => .ok (v, b.size)

end Blob

/-! ## The interface the stamps use -/

/-- What every stamp needs from a blob (blob.h 39-47). -/
class BlobLike (β : Type) where
  size : β → Nat
  chop : Nat → M β β
  bytes : β → Out Bytes
  view : β → Out Bytes

/-- The `Blob` of blob.cpp, with its buffer (blob.h 30-49). -/
instance : BlobLike Blob where
  size := Blob.size
  chop := Blob.chop
  bytes := Blob.asByteVector
  view := Blob.asVector

/-- The abstract blob: just the remaining bytes. [blob.h 33-35 seen from outside] -/
abbrev ABlob := Bytes

/-- The same functions on the remaining bytes alone (blob.cpp 49-86, 98-104). -/
instance : BlobLike ABlob where
  size b := List.length b
  chop n := fun b =>
    if List.length b < n then (.outOfData, b) else (.ok (List.take n b), List.drop n b)
  bytes b := if List.length b = 0 then .ub .ptrArith else .ok b
  view b := .ok b

open BlobLike

/-- `Chop(min,max)` through the interface (blob.cpp 63-74). -/
def chop2 {β : Type} [BlobLike β] (mn mx : Nat) : M β β := fun b =>
  if BlobLike.size b < mn then (.outOfData, b)
  else if mx ≤ BlobLike.size b then BlobLike.chop mx b
  else BlobLike.chop (BlobLike.size b) b

end BS
