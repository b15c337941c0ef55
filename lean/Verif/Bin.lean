import Verif.Graph

/-!
# Galleys of binary and typed values (src/galley.cpp 65-76, 381-394, include/blobstamper/galley.h 62-89,
105-110)
-/

namespace BS
open BlobLike

/-- A stamp with `ExtractBin` (`StampBaseBin`, stamp.h 67-72): `StampArithm<T>`, or a user-written one. -/
inductive BinStamp where
  | arith (t : ArithTy)
  | user (u : UserStamp)

/-- `minSize()` and `maxSize()`: stamp_arithm.h 29-30. -/
def BinStamp.sizes : BinStamp → SizePair
  | .arith t => (t.size, t.size)
  | .user u => (u.mn, u.mx)

section
variable {β : Type} [BlobLike β]

/-- A user-written extraction, as in `extract`. [stamp.h 67-72; README.md 157-330] -/
def UserStamp.run (u : UserStamp) : M β Bytes := do
  let v ← (fun b => (view b, b) : M β Bytes)
  let b ← M.get
  let _ ← chop (min (u.behave v).2 (size b))
  M.lift (u.behave v).1

/-- `ExtractBin`: stamp.h 113-120. -/
def BinStamp.extractBin : BinStamp → M β Bytes
  | .arith t => extractArithBin t
  | .user u => u.run

/-- The loops at galley.cpp 71-74, 386-392 and galley.h 84-87: apply each stamp to its piece. The
first argument is the loop counter, an `int`. The pieces are not used afterwards. -/
def eachPiece {α : Type} : Int → List (M β α × β) → Out (List α)
  | _, [] => .ok []
  | k, (ex, c) :: r =>
    (ex c).1.bind fun v =>
    (ckInt (k + 1)).bind fun k' =>
    (eachPiece k' r).bind fun vs => .ok (v :: vs)

/-- galley.cpp 65-76: `GalleyVectorBin::ExtractBinVector`. -/
def vectorBin (fuel : Nat) (s : BinStamp) : M β (List Bytes) := do
  let ps ← vecSplit fuel s.sizes.1 s.sizes.2
  M.lift (eachPiece 0 (ps.map fun c => (s.extractBin, c)))

/-- galley.h 78-89: `GalleyVectorV<T>::ExtractValuesVector` over `StampArithm<T>`. -/
def vectorV (fuel : Nat) (t : ArithTy) : M β (List AVal) := do
  let ps ← vecSplit fuel t.size t.size
  M.lift (eachPiece 0 (ps.map fun c => (extractValue t, c)))

/-- galley.cpp 381-394: `GalleySetBin::ExtractBinSet`. -/
def setBin (ss : List BinStamp) : M β (List Bytes) := do
  let ps ← setSplit (ss.map BinStamp.sizes)
  M.lift (eachPiece 0 ((ss.map BinStamp.extractBin).zip ps))

end

end BS
