import Verif.Dict
import Verif.Galley

/-!
# Stamps as a graph: size queries, recursion flags and string extraction

Stamps refer to each other by shared or weak pointers and recursive grammars are cyclic, so a
program state holds a map from object identities to stamp objects. The wiring does not change
during queries and extraction; the two recursion flags of `StampBase`
(include/blobstamper/stamp.h 34-36) do, and are kept in a separate state `Flags`.
-/

namespace BS
open BlobLike

/-- Identity of a stamp object. [the address of an object of stamp.h 31] -/
abbrev Id := Nat

/-- A user-written stamp: constant sizes, and an extraction that is any function of the bytes left
in the blob, giving an outcome and the number of bytes it takes (README.md 157-330 "Creating your own
Stamps"). -/
structure UserStamp where
  mn : Int
  mx : Int
  recursive : Bool
  behave : Bytes → Out Bytes × Nat

/-- A stamp object producing strings (`StampBaseStr`, stamp.h 59-64). -/
inductive Node where
  /-- `StampArithm<T>` -/
  | arith (t : ArithTy)
  /-- `StampDict` over a word list -/
  | dict (ws : List Bytes)
  /-- `StampJSONString` -/
  | jsonStr
  /-- `StampStringLatin1` -/
  | latin1
  /-- `StampStringASCII` -/
  | ascii
  /-- user-written leaf -/
  | user (u : UserStamp)
  /-- a `GalleyVectorStr` made into a stamp: `StampStrEnumerator`, `StampText<T>`, README
  `ArrayOfComplexIntStamp`; `join` combines the element strings -/
  | vec (child : Id) (join : List Bytes → Bytes)
  /-- a `GalleySetStr`/`GalleySetBase` made into a stamp; `unb` = `maxSize()` overridden to -1
  (`StampMathBinaryOp`) -/
  | set (children : List Id) (join : List Bytes → Bytes) (unb : Bool)
  /-- stamps applied one after the other to the same blob, sizes added (`StampJSONHashEl` with
  `unb`, README `ComplexIntStamp` without) -/
  | seq (children : List Id) (join : List Bytes → Bytes) (unb : Bool)
  /-- `StampMathUnaryOp` -/
  | unary (op : Bytes) (child : Id)
  /-- `StampLottery` (`rec4` = `StampLottery4Recursion`) with its stored members -/
  | lottery (rec4 : Bool) (stamps : List Id) (oracleSize : Nat) (storedMin storedMax : Int)
  /-- `PoolPickerStamp` -/
  | picker (pool : List Id)

/-- The objects. `none` models an expired weak pointer (stamp_json.cpp 45, 67, 100, 115, 135: dereferencing the
result of `lock()` is then undefined). -/
abbrev Graph := Id → Option Node

/-- stamp.h 35-36: `is_recursive`, `is_in_recursion`. -/
structure Flag where
  isRec : Bool
  inRec : Bool
deriving DecidableEq

/-- Flags of all objects. [stamp.h 35-36] -/
abbrev Flags := Id → Flag

/-- Flags of freshly built stamps (stamp.h 35-36). -/
def Flags.init : Flags := fun _ => ⟨false, false⟩

/-- `is_in_recursion = …` (stamp_json.cpp 42, 48, 52, 112, 119, 132, 138, 144). -/
def Flags.setIn (fl : Flags) (i : Id) (v : Bool) : Flags :=
  fun j => if j = i then { fl i with inRec := v } else fl j

/-- `is_recursive = true` (stamp_json.cpp 47). -/
def Flags.setRec (fl : Flags) (i : Id) : Flags :=
  fun j => if j = i then { fl i with isRec := true } else fl j

/-- Which size is asked for (stamp.h 38-39). -/
inductive Sel where
  | min
  | max
deriving DecidableEq

/-- stamp_json.cpp 113-118: the loop of `PoolPickerStamp::minSize`. -/
def pickMinLoop (q : Id → M Flags Int) : List Id → Int → M Flags Int
  | [], res => pure res
  | i :: is, res => do
    let c ← q i
    pickMinLoop q is (if c < res then c else res)

/-- stamp_json.cpp 133-143: the loop of `PoolPickerStamp::maxSize`; `none` = early return of -1. -/
def pickMaxLoop (q : Id → M Flags Int) : List Id → Int → M Flags (Option Int)
  | [], res => pure (some res)
  | i :: is, res => do
    let c ← q i
    if c = -1 then pure none
    else pickMaxLoop q is (if res < c then c else res)

/-- Sizes of several stamps, in order (galley.cpp 202-216, 408-421, 439-450). Simplification: these loops ask for
minimum and maximum alternately and more than once, and galley.cpp 447 stops at the first unbounded stamp. Wherever the
simplified query returns, the one that asks call by call (Calls.lean) returns the same (C86_same_sizes). -/
def queryAll (q : Id → M Flags Int) : List Id → M Flags (List Int)
  | [] => pure []
  | i :: is => do
    let c ← q i
    let r ← queryAll q is
    pure (c :: r)

/-- Sum of `int`s with overflow check (stamp_json.h 80, README.md 192-200). -/
def sumInts : List Int → Int → Out Int
  | [], a => .ok a
  | x :: xs, a => do
    let s ← ckInt (a + x)
    sumInts xs s

/-- Modify the flags. [assignments to the members of stamp.h 35-36] -/
def modFlags (f : Flags → Flags) : M Flags Unit := fun fl => (.ok (), f fl)

/-- `minSize()` / `maxSize()` of an object (virtual calls, stamp.h 38-39). The first argument bounds the depth of
the call stack. -/
def sizeQ (G : Graph) : Nat → Sel → Id → M Flags Int
  | 0, _, _ => M.out .fuel
  | n + 1, sel, i =>
    match G i with
    | none => M.ub .nullDeref
    | some nd =>
      match nd with
      -- stamp_arithm.h 29-30
      | .arith t => pure t.size
      -- stamp_dict.h 46-47
      | .dict ws => pure (chooseStampSize ws.length).1
      -- stamp_json.h 60-61
      | .jsonStr => pure 8
      -- stamp_text.h 30-31, 38-39
      | .latin1 | .ascii => pure (match sel with | .min => 1 | .max => -1)
      | .user u => pure (match sel with | .min => u.mn | .max => u.mx)
      -- galley.cpp 29-47, galley.h 44
      | .vec c _ =>
        match sel with
        | .max => pure (-1)
        | .min => do
          let mn ← sizeQ G n .min c
          let mx ← sizeQ G n .max c
          pure (vecMinSize mn mx)
      -- galley.cpp 396-452, stamp_math_op.h 56
      | .set cs _ unb =>
        match sel, unb with
        | .max, true => pure (-1)
        | .max, false => do
          let mns ← queryAll (sizeQ G n .min) cs
          let mxs ← queryAll (sizeQ G n .max) cs
          M.lift (setMaxSize (mns.zip mxs) 0)
        | .min, _ => do
          let mns ← queryAll (sizeQ G n .min) cs
          let mxs ← queryAll (sizeQ G n .max) cs
          M.lift (setMinSize (mns.zip mxs))
      -- stamp_json.h 80-81, README.md 192-200
      | .seq cs _ unb =>
        match sel, unb with
        | .max, true => pure (-1)
        | _, _ => do
          let xs ← queryAll (sizeQ G n sel) cs
          M.lift (sumInts xs 0)
      -- stamp_math_op.h 35-36
      | .unary _ c =>
        match sel with
        | .max => pure (-1)
        | .min => sizeQ G n .min c
      -- stamp_lottery.h 125-137
      | .lottery _ _ osz smin smax =>
        match sel with
        | .min => M.lift (ckInt (smin + osz))
        | .max => if smax = -1 then pure (-1) else M.lift (ckInt (smax + osz))
      | .picker pool =>
        match sel with
        -- stamp_json.cpp 103-124
        | .min => do
          let fl ← M.get
          if (fl i).inRec then pure (INT_MAX / 2)
          else do
            modFlags (·.setIn i true)
            let res ← pickMinLoop (sizeQ G n .min) pool (INT_MAX / 2)
            modFlags (·.setIn i false)
            if res = INT_MAX / 2 then pure (INT_MAX / 2) else pure (wrap32 (res + 2))
        -- stamp_json.cpp 126-147
        | .max => do
          let fl ← M.get
          if (fl i).isRec || (fl i).inRec then pure (-1)
          else do
            modFlags (·.setIn i true)
            let r ← pickMaxLoop (sizeQ G n .max) pool 0
            modFlags (·.setIn i false)
            match r with
            | none => pure (-1)
            | some res => pure (wrap32 (res + 2))

/-- stamp_json.cpp 43-51: the loop of `isRecursive`. -/
def isRecLoop (q : Id → M Flags Bool) : List Id → M Flags Bool
  | [] => pure false
  | i :: is => do
    let r ← q i
    if r then pure true else isRecLoop q is

/-- `isRecursive()` of an object: stamp.h 46 returns the `is_recursive` member (false unless the
class derives from `StampRecursive`, stamp.h 54); only `PoolPickerStamp` overrides it
(stamp_json.cpp 37-54). -/
def isRecQ (G : Graph) : Nat → Id → M Flags Bool
  | 0, _ => M.out .fuel
  | n + 1, i =>
    match G i with
    | none => M.ub .nullDeref
    | some (.user u) => pure u.recursive
    | some (.picker pool) => do
      let fl ← M.get
      if (fl i).isRec || (fl i).inRec then pure true
      else do
        modFlags (·.setIn i true)
        let r ← isRecLoop (isRecQ G n) pool
        if r then modFlags (·.setRec i)
        modFlags (·.setIn i false)
        pure r
    | some _ => pure false

/-! ## Extraction -/

/-- stamp_enumerator.cpp 31-38 and stamp_text.h 60-67: the separator is added when the text so far
is not empty. -/
def joinLoop (sep : Bytes) : Bytes → List Bytes → Bytes
  | res, [] => res
  | res, s :: ss => joinLoop sep ((if res.isEmpty then res else res ++ sep) ++ s) ss

/-- stamp_enumerator.cpp 26-41. -/
def enumJoin (sep l r : Bytes) (xs : List Bytes) : Bytes := l ++ joinLoop sep [] xs ++ r

/-- stamp_text.h 54-69. -/
def textJoin (xs : List Bytes) : Bytes := joinLoop [32] [] xs

/-- stamp_math_op.cpp 22-26. -/
def unaryText (op x : Bytes) : Bytes := op ++ [40] ++ x ++ [41]

/-- stamp_math_op.cpp 29-34. -/
def binaryText (op : Bytes) : List Bytes → Bytes
  | [a, b] => [40] ++ a ++ [32] ++ op ++ [32] ++ b ++ [41]
  | _ => []

/-- stamp_json.cpp 163-169. -/
def hashElText : List Bytes → Bytes
  | [n, v] => n ++ [58, 32] ++ v
  | _ => []

section
variable {β : Type} [BlobLike β]

/-- State during extraction: all flags, and the current blob. [stamp.h 34-36, blob.h 33-35] -/
abbrev XM (β α : Type) := M (Flags × β) α

/-- Run a computation on the current blob. [plumbing of the model] -/
def liftB {α : Type} (m : M β α) : XM β α := fun s =>
  let r := m s.2
  (r.1, (s.1, r.2))

/-- Run a size query. [plumbing of the model] -/
def liftF {α : Type} (m : M Flags α) : XM β α := fun s =>
  let r := m s.1
  (r.1, (r.2, s.2))

/-- Run an extraction on another blob (a local variable), leaving the current one alone.
[plumbing of the model, for galley.cpp 57-61, 371-377] -/
def onBlob {α : Type} (c : β) (m : XM β α) : XM β α := fun s =>
  let r := m (s.1, c)
  (r.1, (r.2.1, s.2))

/-- Size of the current blob. [`blob->Size()`, blob.h 39] -/
def curSize : XM β Nat := fun s => (.ok (size s.2), s)

/-- galley.cpp 57-61, 371-377: apply the stamp(s) to the pieces, in order. The first argument is the
loop counter, an `int`. -/
def extractEach (ex : Id → XM β Bytes) : Int → List (Id × β) → XM β (List Bytes)
  | _, [] => pure []
  | k, (i, c) :: r => do
    let s ← onBlob c (ex i)
    let k' ← M.lift (ckInt (k + 1))
    let ss ← extractEach ex k' r
    pure (s :: ss)

/-- Apply stamps one after the other to the current blob (stamp_json.cpp 166-167, README.md 207-213). -/
def extractSeq (ex : Id → XM β Bytes) : List Id → XM β (List Bytes)
  | [] => pure []
  | i :: is => do
    let s ← ex i
    let ss ← extractSeq ex is
    pure (s :: ss)

/-- stamp_json.cpp 62-78: the two pools of `PoolPickerStamp::ExtractStr`. -/
def pickFilter (qmin qmax : Id → M Flags Int) : List Id → XM β (List Id × List Id)
  | [] => pure ([], [])
  | i :: is => do
    let mn ← liftF (qmin i)
    let sz ← curSize
    if toSz mn ≤ sz then do
      let mx ← liftF (qmax i)
      let r ← pickFilter qmin qmax is
      if mx = -1 ∨ sz ≤ toSz mx then pure (i :: r.1, i :: r.2) else pure (i :: r.1, r.2)
    else pickFilter qmin qmax is

/-- stamp_lottery.h 61-71 (`StampLottery4Recursion`) and 45 (`StampLottery`, always true):
`soft_maxsize_filter`. `data_size` is an `int`. -/
def softFilter (rec4 : Bool) (qmin qmax : Id → M Flags Int) (i : Id) (dataSize : Int) :
    M Flags Bool :=
  if !rec4 then pure true
  else do
    let mx ← qmax i
    if mx = -1 ∨ dataSize < mx then pure true
    else do
      let mn ← qmin i
      let s ← M.lift (ckInt (mn + mx))
      pure (decide (dataSize < s))

/-- stamp_lottery.h 180-188: stamps that fit and pass the soft filter. -/
def lotFilter (rec4 : Bool) (qmin qmax : Id → M Flags Int) : List Id → XM β (List Id)
  | [] => pure []
  | i :: is => do
    let mn ← liftF (qmin i)
    let sz ← curSize
    if sz < toSz mn then lotFilter rec4 qmin qmax is
    else do
      let ok ← liftF (softFilter rec4 qmin qmax i (wrap32 sz))
      let r ← lotFilter rec4 qmin qmax is
      pure (if ok then i :: r else r)

/-- Largest value of an unsigned oracle of the given width (stamp_lottery.h 146-174). -/
def uMax (width : Nat) : Nat := 2 ^ (8 * width) - 1

/-- `ExtractStr` of an object (virtual call, stamp.h 62). The fuel bounds the call depth and the loops. -/
def extract (G : Graph) : Nat → Id → XM β Bytes
  | 0, _ => M.out .fuel
  | n + 1, i =>
    match G i with
    | none => M.ub .nullDeref
    | some nd =>
      match nd with
      | .arith t => liftB (extractArithStr t)
      | .dict ws => liftB (extractDict ws)
      | .jsonStr => liftB extractJsonStr
      | .latin1 => liftB (extractText latin1Char)
      | .ascii => liftB (extractText asciiChar)
      | .user u => do
        let v ← liftB (fun b => (view b, b))
        let r := u.behave v
        let sz ← curSize
        let _ ← liftB (chop (min r.2 sz))
        M.lift r.1
      -- stamp_enumerator.cpp 26-41, stamp_text.h 54-69, galley.cpp 51-63
      | .vec c join => do
        let mn ← liftF (sizeQ G n .min c)
        let mx ← liftF (sizeQ G n .max c)
        let blobs ← liftB (vecSplit n mn mx)
        let xs ← extractEach (extract G n) 0 (blobs.map fun b => (c, b))
        pure (join xs)
      -- galley.cpp 366-379, stamp_math_op.cpp 29-34. Simplification: in line 33 of the latter C++ does not
      -- fix which of the two `ExtractStr` runs first; the model runs the first stamp first (see Order.lean, C64).
      | .set cs join _ => do
        let mns ← liftF (queryAll (sizeQ G n .min) cs)
        let mxs ← liftF (queryAll (sizeQ G n .max) cs)
        let blobs ← liftB (setSplit (mns.zip mxs))
        let xs ← extractEach (extract G n) 0 (cs.zip blobs)
        pure (join xs)
      -- stamp_json.cpp 163-169, README.md 207-213
      | .seq cs join _ => do
        let xs ← extractSeq (extract G n) cs
        pure (join xs)
      -- stamp_math_op.cpp 22-26
      | .unary op c => do
        let x ← extract G n c
        pure (unaryText op x)
      -- stamp_lottery.h 140-208; the second filter is 189-198
      | .lottery rec4 stamps osz _ _ => do
        let o ← liftB (uOracle osz)
        let l1 ← lotFilter rec4 (sizeQ G n .min) (sizeQ G n .max) stamps
        let l ← (if l1.isEmpty then lotFilter false (sizeQ G n .min) (sizeQ G n .max) stamps
          else pure l1)
        if l.isEmpty then M.throwOOD
        else do
          let k ← M.lift (scaledIndex o (uMax osz) l.length)
          let j ← M.lift (vecGet l k)
          extract G n j
      -- stamp_json.cpp 56-101
      | .picker pool => do
        let o ← liftB oracle
        let r ← pickFilter (sizeQ G n .min) (sizeQ G n .max) pool
        let l := if r.2.isEmpty then r.1 else r.2
        if l.isEmpty then do
          let mn ← liftF (sizeQ G (n + 1) .min i)
          let sz ← curSize
          if sz < toSz mn then M.throwOOD else M.out .abort
        else do
          let k ← M.lift (oracleProportion o 0 (toSz ((l.length : Int) - 1)))
          let j ← M.lift (vecGet l k)
          extract G n j

end

/-! ## Building lotteries -/

/-- The mutable members of a lottery (stamp_lottery.h 26-33) that sizes depend on. -/
structure LotState where
  stamps : List Id
  oracleSize : Nat
  storedMin : Int
  storedMax : Int
deriving DecidableEq, Repr

/-- stamp_lottery.h 106-117: `init_oracle_size`. -/
def initOracleSize (n : Nat) : Nat :=
  if n < 255 then 1 else if n < 65535 then 2 else if n < 4294967295 then 4 else 8

/-- stamp_lottery.h 40: default constructor. -/
def LotState.empty : LotState := ⟨[], 1, -1, -2⟩

/-- stamp_lottery.h 73-86: `init_stored_min`. -/
def initStoredMin (ss : List SizePair) : Int :=
  ss.foldl (fun m s => if s.1 < m then s.1 else m) INT_MAX

/-- stamp_lottery.h 88-103: `init_stored_max`. -/
def initStoredMax : List SizePair → Int → Int
  | [], m => m
  | s :: ss, m => if s.2 = -1 then -1 else initStoredMax ss (if m < s.2 then s.2 else m)

/-- stamp_lottery.h 36-39: constructor from a list of stamps with the given sizes. -/
def LotState.ofList (l : List (Id × SizePair)) : LotState :=
  ⟨l.map Prod.fst, initOracleSize l.length, initStoredMin (l.map Prod.snd),
    initStoredMax (l.map Prod.snd) 0⟩

/-- stamp_lottery.h 211-231: `Append`. -/
def LotState.append (s : LotState) (i : Id) (sz : SizePair) : LotState :=
  let smax := if sz.2 = -1 then -1 else if s.storedMax < sz.2 then sz.2 else s.storedMax
  let smin0 := if s.storedMin = -1 then sz.1 else s.storedMin
  let smin := if sz.1 < smin0 then sz.1 else smin0
  let st := s.stamps ++ [i]
  ⟨st, initOracleSize st.length, smin, smax⟩

/-- stamp_lottery.h 125-129: `minSize()`. -/
def LotState.minSize (s : LotState) : Out Int := ckInt (s.storedMin + s.oracleSize)

/-- stamp_lottery.h 131-137: `maxSize()`. -/
def LotState.maxSize (s : LotState) : Out Int :=
  if s.storedMax = -1 then .ok (-1) else ckInt (s.storedMax + s.oracleSize)

/-- The lottery object (stamp_lottery.h 23-58) as a node of the graph. -/
def LotState.node (s : LotState) (rec4 : Bool) : Node :=
  .lottery rec4 s.stamps s.oracleSize s.storedMin s.storedMax

/-! ## The JSON stamp (src/stamp_json.cpp 173-189, include/blobstamper/stamp_json.h) -/

/-- `StampStrEnumerator` (stamp_enumerator.h 28-49). -/
def Node.enumerator (c : Id) (sep l r : Bytes) : Node := .vec c (enumJoin sep l r)
/-- `StampText<T>` (stamp_text.h 43-47). -/
def Node.text (c : Id) : Node := .vec c textJoin
/-- `StampMathBinaryOp` (stamp_math_op.h 41-58). -/
def Node.binary (op : Bytes) (a b : Id) : Node := .set [a, b] (binaryText op) true
/-- `StampJSONHashEl` over name stamp `n` and value stamp `v` (stamp_json.h 72-83). -/
def Node.hashEl (n v : Id) : Node := .seq [n, v] hashElText true

/-- `StampJSON`: object 0 is the picker. Pool order: integer, float, string, array, hash
(stamp_json.cpp 183-188). Object 7 is the hash element's own name stamp (stamp_json.h 79). -/
def jsonGraph : Graph
  | 0 => some (.picker [1, 2, 3, 4, 5])
  | 1 => some (.arith .i64)
  | 2 => some (.arith .double)
  | 3 => some .jsonStr
  | 4 => some (.enumerator 0 [44, 32] [91] [93])
  | 5 => some (.enumerator 6 [44, 32] [123] [125])
  | 6 => some (.hashEl 7 0)
  | 7 => some .jsonStr
  | _ => none

end BS
