import Verif.Graph

/-!
# Size queries call by call

`sizeQ` (Graph.lean) asks each stamp for its two sizes once. The code asks again each time it needs a size. Here the
size functions are written down with all their calls, and the calls are counted.
-/

namespace BS

/-- Flags of all objects, and the number of calls of `minSize()` and `maxSize()` so far.
[calls of stamp.h 38-39; state of stamp.h 35-36] -/
abbrev CM (α : Type) := M (Flags × Nat) α

/-- One more call. [a call of stamp.h 38 or 39] -/
def tick : CM Unit := fun s => (.ok (), (s.1, s.2 + 1))

/-- Change the flags. [assignments to the members of stamp.h 35-36] -/
def modFlagsC (f : Flags → Flags) : CM Unit := fun s => (.ok (), (f s.1, s.2))

/-- stamp.h 43: `isFixedSize()`. C++ does not say which of the two calls comes first. -/
def askFixed (q : Sel → Id → CM Int) (i : Id) : CM Bool := do
  let a ← q .min i
  let b ← q .max i
  pure (a == b)

/-- stamp.h 45: `isUnbounded()`. -/
def askUnb (q : Sel → Id → CM Int) (i : Id) : CM Bool := do
  let b ← q .max i
  pure (b == -1)

/-- stamp.h 44: `isVariated()`. -/
def askVar (q : Sel → Id → CM Int) (i : Id) : CM Bool := do
  let f ← askFixed q i
  if f then pure false
  else do
    let u ← askUnb q i
    pure (!u)

/-- galley.cpp 29-47: `GalleyVectorBase::minSize`. -/
def vecMinC (q : Sel → Id → CM Int) (c : Id) : CM Int := do
  let f ← askFixed q c
  if f then q .min c
  else do
    let u ← askUnb q c
    let mn ← q .min c
    pure (if u then wrap32 (mn + 4) else wrap32 (mn + 2))

/-- galley.cpp 408-421: the loop of `GalleySetBase::minSize`, with `res`, `variated_count`, `unbounded_count`; then
422-430. -/
def setMinC (q : Sel → Id → CM Int) : List Id → Int → Nat → Nat → CM Int
  | [], res, nVar, nUnb =>
    let r1 := if 0 < nVar ∧ 0 < nUnb then wrap32 (res + 2) else res
    let r2 := wrap32 (r1 + 2 * nVar)
    pure (if 1 < nUnb then wrap32 (r2 + 2 * nUnb) else r2)
  | i :: is, res, nVar, nUnb => do
    let mn ← q .min i
    let res' ← M.lift (ckInt (res + mn))
    let v ← askVar q i
    let u ← askUnb q i
    setMinC q is res' (if v then nVar + 1 else nVar) (if u then nUnb + 1 else nUnb)

/-- galley.cpp 433-452: `GalleySetBase::maxSize`. -/
def setMaxC (q : Sel → Id → CM Int) : List Id → Int → CM Int
  | [], res => pure res
  | i :: is, res => do
    let mx ← q .max i
    let r1 ← M.lift (ckInt (res + mx))
    let v ← askVar q i
    let r2 := if v then wrap32 (r1 + 2) else r1
    let u ← askUnb q i
    if u then pure (-1) else setMaxC q is r2

/-- stamp_json.h 80, README.md 192-200: a sum of sizes. -/
def sumC (q : Sel → Id → CM Int) (sel : Sel) : List Id → Int → CM Int
  | [], res => pure res
  | i :: is, res => do
    let a ← q sel i
    let res' ← M.lift (ckInt (res + a))
    sumC q sel is res'

/-- stamp_json.cpp 113-118. -/
def pickMinC (q : Sel → Id → CM Int) : List Id → Int → CM Int
  | [], res => pure res
  | i :: is, res => do
    let c ← q .min i
    pickMinC q is (if c < res then c else res)

/-- stamp_json.cpp 133-143; `none` = early return of -1. -/
def pickMaxC (q : Sel → Id → CM Int) : List Id → Int → CM (Option Int)
  | [], res => pure (some res)
  | i :: is, res => do
    let c ← q .max i
    if c = -1 then pure none
    else pickMaxC q is (if res < c then c else res)

/-- `minSize()` / `maxSize()` of an object (stamp.h 38-39), every call counted. -/
def sizeC (G : Graph) : Nat → Sel → Id → CM Int
  | 0, _, _ => M.out .fuel
  | n + 1, sel, i => do
    tick
    match G i with
    | none => M.ub .nullDeref
    | some nd =>
      match nd with
      -- stamp_arithm.h 29-30
      | .arith t => pure t.size
      -- stamp_dict.h 46-47
      | .dict ws => pure (chooseStampSize ws.length).1
      -- stamp_json.h 60-61
      | .jsonStr => pure 8
      -- stamp_text.h 30-31, 38-39
      | .latin1 | .ascii => pure (match sel with | .min => 1 | .max => -1)
      | .user u => pure (match sel with | .min => u.mn | .max => u.mx)
      -- galley.cpp 29-47, galley.h 44
      | .vec c _ =>
        match sel with
        | .max => pure (-1)
        | .min => vecMinC (sizeC G n) c
      -- galley.cpp 396-452, stamp_math_op.h 56
      | .set cs _ unb =>
        match sel, unb with
        | .max, true => pure (-1)
        | .max, false => setMaxC (sizeC G n) cs 0
        | .min, _ => setMinC (sizeC G n) cs 0 0 0
      -- stamp_json.h 80-81, README.md 192-200
      | .seq cs _ unb =>
        match sel, unb with
        | .max, true => pure (-1)
        | _, _ => sumC (sizeC G n) sel cs 0
      -- stamp_math_op.h 35-36
      | .unary _ c =>
        match sel with
        | .max => pure (-1)
        | .min => sizeC G n .min c
      -- stamp_lottery.h 125-137
      | .lottery _ _ osz smin smax =>
        match sel with
        | .min => M.lift (ckInt (smin + osz))
        | .max => if smax = -1 then pure (-1) else M.lift (ckInt (smax + osz))
      | .picker pool =>
        match sel with
        -- stamp_json.cpp 103-124
        | .min => do
          let s ← M.get
          if (s.1 i).inRec then pure (INT_MAX / 2)
          else do
            modFlagsC (·.setIn i true)
            let res ← pickMinC (sizeC G n) pool (INT_MAX / 2)
            modFlagsC (·.setIn i false)
            if res = INT_MAX / 2 then pure (INT_MAX / 2) else pure (wrap32 (res + 2))
        -- stamp_json.cpp 126-147
        | .max => do
          let s ← M.get
          if (s.1 i).isRec || (s.1 i).inRec then pure (-1)
          else do
            modFlagsC (·.setIn i true)
            let r ← pickMaxC (sizeC G n) pool 0
            modFlagsC (·.setIn i false)
            match r with
            | none => pure (-1)
            | some res => pure (wrap32 (res + 2))

/-! ## Extraction -/

section
variable {β : Type} [BlobLike β]

/-- The number of calls of `ExtractStr` so far, the flags, and the current blob. [calls of stamp.h 62] -/
abbrev WM (β α : Type) := M (Nat × (Flags × β)) α

/-- Something without calls of `ExtractStr`. [plumbing of the model] -/
def liftW {α : Type} (m : XM β α) : WM β α := fun w =>
  let r := m w.2
  (r.1, (w.1, r.2))

/-- One more call. [a call of the function of stamp.h 62] -/
def tickW : WM β Unit := fun w => (.ok (), (w.1 + 1, w.2))

/-- Run on another blob. [plumbing of the model, for galley.cpp 57-61, 371-377] -/
def onBlobW {α : Type} (c : β) (m : WM β α) : WM β α := fun w =>
  let r := m (w.1, (w.2.1, c))
  (r.1, (r.2.1, (r.2.2.1, w.2.2)))

/-- galley.cpp 57-61, 371-377. -/
def extractEachW (ex : Id → WM β Bytes) : Int → List (Id × β) → WM β (List Bytes)
  | _, [] => pure []
  | k, (i, c) :: r => do
    let s ← onBlobW c (ex i)
    let k' ← M.lift (ckInt (k + 1))
    let ss ← extractEachW ex k' r
    pure (s :: ss)

/-- stamp_json.cpp 166-167, README.md 207-213. -/
def extractSeqW (ex : Id → WM β Bytes) : List Id → WM β (List Bytes)
  | [] => pure []
  | i :: is => do
    let s ← ex i
    let ss ← extractSeqW ex is
    pure (s :: ss)

/-- `ExtractStr` of an object (stamp.h 62), as `extract` (Graph.lean), every call of `ExtractStr` counted. -/
def extractW (G : Graph) : Nat → Id → WM β Bytes
  | 0, _ => M.out .fuel
  | n + 1, i => do
    tickW
    match G i with
    | none => M.ub .nullDeref
    | some nd =>
      match nd with
      -- stamp_enumerator.cpp 26-41, stamp_text.h 54-69, galley.cpp 51-63
      | .vec c join => do
        let mn ← liftW (liftF (sizeQ G n .min c))
        let mx ← liftW (liftF (sizeQ G n .max c))
        let blobs ← liftW (liftB (vecSplit n mn mx))
        let xs ← extractEachW (extractW G n) 0 (blobs.map fun b => (c, b))
        pure (join xs)
      -- galley.cpp 366-379, stamp_math_op.cpp 29-34
      | .set cs join _ => do
        let mns ← liftW (liftF (queryAll (sizeQ G n .min) cs))
        let mxs ← liftW (liftF (queryAll (sizeQ G n .max) cs))
        let blobs ← liftW (liftB (setSplit (mns.zip mxs)))
        let xs ← extractEachW (extractW G n) 0 (cs.zip blobs)
        pure (join xs)
      -- stamp_json.cpp 163-169, README.md 207-213
      | .seq cs join _ => do
        let xs ← extractSeqW (extractW G n) cs
        pure (join xs)
      -- stamp_math_op.cpp 22-26
      | .unary op c => do
        let x ← extractW G n c
        pure (unaryText op x)
      -- stamp_lottery.h 140-208
      | .lottery rec4 stamps osz _ _ => do
        let o ← liftW (liftB (uOracle osz))
        let l1 ← liftW (lotFilter rec4 (sizeQ G n .min) (sizeQ G n .max) stamps)
        let l ← liftW (if l1.isEmpty then lotFilter false (sizeQ G n .min) (sizeQ G n .max) stamps else pure l1)
        if l.isEmpty then M.throwOOD
        else do
          let k ← M.lift (scaledIndex o (uMax osz) l.length)
          let j ← M.lift (vecGet l k)
          extractW G n j
      -- stamp_json.cpp 56-101
      | .picker pool => do
        let o ← liftW (liftB oracle)
        let r ← liftW (pickFilter (sizeQ G n .min) (sizeQ G n .max) pool)
        let l := if r.2.isEmpty then r.1 else r.2
        if l.isEmpty then do
          let mn ← liftW (liftF (sizeQ G (n + 1) .min i))
          let sz ← liftW curSize
          if sz < toSz mn then M.throwOOD else M.out .abort
        else do
          let k ← M.lift (oracleProportion o 0 (toSz ((l.length : Int) - 1)))
          let j ← M.lift (vecGet l k)
          extractW G n j
      -- the other stamps call no other stamp's `ExtractStr`
      | _ => liftW (extract G (n + 1) i)

end

end BS
