import Verif.Graph

/-!
# Order of evaluation of operands (src/stamp_math_op.cpp 29-34)

`StampMathBinaryOp::ExtractStr` calls `ExtractStr` of both operands within one expression; C++ does
not say which call comes first.
-/

namespace BS
open BlobLike

section
variable {β : Type} [BlobLike β]

/-- As `extractEach` (galley.cpp 371-377, stamp_math_op.cpp 33), but the last stamp is applied first. The results are in the
order of the stamps. -/
def extractEachRev (ex : Id → XM β Bytes) : Int → List (Id × β) → XM β (List Bytes)
  | _, [] => pure []
  | k, (i, c) :: r => do
    let k' ← M.lift (ckInt (k + 1))
    let ss ← extractEachRev ex k' r
    let s ← onBlob c (ex i)
    pure (s :: ss)

/-- `ExtractStr` (stamp.h 62) as in `extract`, except that `ch` decides, each time a set of stamps is
applied to its pieces, in which order that happens: from the first or from the last. The decision may depend on everything
there is. For the two operands of `StampMathBinaryOp` these are all the orders that C++ allows
(stamp_math_op.cpp 33); for `GalleySetStr` (galley.cpp 366-379) only the first is possible. -/
def extractO (ch : Id → Flags × β → Bool) (G : Graph) : Nat → Id → XM β Bytes
  | 0, _ => M.out .fuel
  | n + 1, i =>
    match G i with
    | none => M.ub .nullDeref
    | some nd =>
      match nd with
      | .arith t => liftB (extractArithStr t)
      | .dict ws => liftB (extractDict ws)
      | .jsonStr => liftB extractJsonStr
      | .latin1 => liftB (extractText latin1Char)
      | .ascii => liftB (extractText asciiChar)
      | .user u => do
        let v ← liftB (fun b => (view b, b))
        let r := u.behave v
        let sz ← curSize
        let _ ← liftB (chop (min r.2 sz))
        M.lift r.1
      -- stamp_enumerator.cpp 26-41, stamp_text.h 54-69, galley.cpp 51-63
      | .vec c join => do
        let mn ← liftF (sizeQ G n .min c)
        let mx ← liftF (sizeQ G n .max c)
        let blobs ← liftB (vecSplit n mn mx)
        let xs ← extractEach (extractO ch G n) 0 (blobs.map fun b => (c, b))
        pure (join xs)
      -- galley.cpp 366-379, stamp_math_op.cpp 29-34
      | .set cs join _ => do
        let mns ← liftF (queryAll (sizeQ G n .min) cs)
        let mxs ← liftF (queryAll (sizeQ G n .max) cs)
        let blobs ← liftB (setSplit (mns.zip mxs))
        let xs ← (fun s => if ch i s then extractEach (extractO ch G n) 0 (cs.zip blobs) s
          else extractEachRev (extractO ch G n) 0 (cs.zip blobs) s)
        pure (join xs)
      -- stamp_json.cpp 163-169, README.md 207-213
      | .seq cs join _ => do
        let xs ← extractSeq (extractO ch G n) cs
        pure (join xs)
      -- stamp_math_op.cpp 22-26
      | .unary op c => do
        let x ← extractO ch G n c
        pure (unaryText op x)
      -- stamp_lottery.h 140-208; the second filter is 189-198
      | .lottery rec4 stamps osz _ _ => do
        let o ← liftB (uOracle osz)
        let l1 ← lotFilter rec4 (sizeQ G n .min) (sizeQ G n .max) stamps
        let l ← (if l1.isEmpty then lotFilter false (sizeQ G n .min) (sizeQ G n .max) stamps
          else pure l1)
        if l.isEmpty then M.throwOOD
        else do
          let k ← M.lift (scaledIndex o (uMax osz) l.length)
          let j ← M.lift (vecGet l k)
          extractO ch G n j
      -- stamp_json.cpp 56-101
      | .picker pool => do
        let o ← liftB oracle
        let r ← pickFilter (sizeQ G n .min) (sizeQ G n .max) pool
        let l := if r.2.isEmpty then r.1 else r.2
        if l.isEmpty then do
          let mn ← liftF (sizeQ G (n + 1) .min i)
          let sz ← curSize
          if sz < toSz mn then M.throwOOD else M.out .abort
        else do
          let k ← M.lift (oracleProportion o 0 (toSz ((l.length : Int) - 1)))
          let j ← M.lift (vecGet l k)
          extractO ch G n j

end

end BS
