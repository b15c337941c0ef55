import Verif.Arith
import Verif.Oracle

/-!
# Galleys (src/galley.cpp): how a blob is split between stamps

A stamp enters only through its `minSize()` and `maxSize()`, given here as `mn mx : Int`.
(`isFixedSize()` is `mn = mx`, `isUnbounded()` is `mx = -1`, `isVariated()` is neither;
include/blobstamper/stamp.h 43-45.)
-/

namespace BS
open BlobLike

/-- Conversion of a floating value to `int` (galley.cpp 152, 247, 308, 336, 343). -/
def FV.toCInt (x : FV) : Out Int := FV.toIntRange (-W31) (W31 - 1) x

section
variable {β : Type} [BlobLike β]

/-! ## GalleyVectorBase::extract_internal (galley.cpp 78-183) -/

/-- galley.cpp 86-94: fixed-size stamp. The first argument bounds the number of iterations. -/
def fixedLoop : Nat → Int → M β (List β)
  | 0, _ => M.out .fuel
  | n + 1, mn => do
    let b ← M.get
    if toSz mn ≤ size b then do
      let el ← chop (toSz mn)
      let r ← fixedLoop n mn
      pure (el :: r)
    else pure []

/-- galley.cpp 124-132: fetch the size oracles, adding them up in an `int`. -/
def sizeOracles : Nat → Int → M β (List Nat × Int)
  | 0, tot => pure ([], tot)
  | n + 1, tot => do
    let o ← oracle
    let tot' ← M.lift (ckInt (tot + o))
    let (os, t) ← sizeOracles n tot'
    pure (o :: os, t)

/-- galley.cpp 147-157: distribute the variable size, in `float`. -/
def unbChopLoop (mn total var : Int) : List Nat → FV → M β (List β)
  | [], _ => pure []
  | o :: os, rem => do
    let share := FV.mul f32 (FV.div f32 (FV.ofInt f32 o) (FV.ofInt f32 total)) (FV.ofInt f32 var)
    let elf := FV.add f32 (FV.add f32 (FV.ofInt f32 mn) share) rem
    let el ← M.lift elf.toCInt
    let rem' := FV.sub f32 elf (FV.ofInt f32 el)
    let c ← chop (toSz el)
    let r ← unbChopLoop mn total var os rem'
    pure (c :: r)

/-- galley.cpp 115-122: number of parts, from the blob size before the oracle and the oracle.
All in `size_t`, the result stored in an `unsigned short`. -/
def countTarget (countMax co : Nat) : Nat :=
  let t := toSz ((toSz ((countMax : Int) * co) / 65535 : Nat) + 1) % 65536
  if countMax < t then countMax else t

/-- galley.cpp 97-158: unbounded stamp. -/
def vecUnbounded (mn : Int) : M β (List β) := do
  let b ← M.get
  let den := toSz ((toSz mn : Int) + 2)
  if den = 0 then M.ub .divByZero else do
  let countMax := toSz ((size b : Int) - 2) / den
  let co ← oracle
  let ct := countTarget countMax co
  let (os, tot) ← sizeOracles ct 0
  let b' ← M.get
  let os' := if tot = 0 then List.replicate ct 1 else os
  let tot' : Int := if tot = 0 then ct else tot
  let dataSize := wrap32 (size b')
  let fixedSize ← M.lift (ckInt (mn * ct))
  let var ← M.lift (ckInt (dataSize - fixedSize))
  unbChopLoop mn tot' var os' (.fin 0)

/-- galley.cpp 161-180: variated stamp, the `while(1)` loop. -/
def variatedLoop : Nat → Int → Int → M β (List β)
  | 0, _, _ => M.out .fuel
  | n + 1, mn, mx => do
    let need ← M.lift (ckInt (mn + 2))
    let b ← M.get
    if size b < toSz need then pure [] else do
    let o ← oracle
    let s ← M.lift (oracleProportion o (toSz mn) (toSz mx))
    let sz := wrap32 s
    let b' ← M.get
    let sz' := if size b' < toSz sz then wrap32 (size b') else sz
    let c ← chop (toSz sz')
    let r ← variatedLoop n mn mx
    pure (c :: r)

/-- galley.cpp 78-183: `GalleyVectorBase::extract_internal`. The fuel bounds loop iterations. -/
def vecSplit (fuel : Nat) (mn mx : Int) : M β (List β) := do
  let b ← M.get
  if size b < toSz mn then M.throwOOD
  else if mn = mx then fixedLoop fuel mn
  else if mx = -1 then vecUnbounded mn
  else do
    let _ ← M.lift (ckInt (mx - mn))
    variatedLoop fuel mn mx

/-! ## GalleySetBase::extract_internal (galley.cpp 187-351) -/

/-- `minSize()` and `maxSize()` of one stamp of the set (stamp.h 38-39). -/
abbrev SizePair := Int × Int

/-- include/blobstamper/stamp.h 43 -/
def SizePair.fixed (s : SizePair) : Bool := s.1 == s.2
/-- include/blobstamper/stamp.h 45 -/
def SizePair.unb (s : SizePair) : Bool := s.2 == -1
/-- include/blobstamper/stamp.h 44 -/
def SizePair.var (s : SizePair) : Bool := !s.fixed && !s.unb

/-- Sizes added up by the first loop (galley.cpp 191-199). -/
structure SetTotals where
  fixed : Int
  maxVar : Int
  nUnb : Nat
  nVar : Nat

/-- galley.cpp 201-216: the first loop. -/
def setTotals : List SizePair → SetTotals → Out SetTotals
  | [], t => .ok t
  | s :: ss, t => do
    let fixed ← ckInt (t.fixed + s.1)
    if SizePair.var s then do
      let d ← ckInt (s.2 - s.1)
      let mv ← ckInt (t.maxVar + d)
      setTotals ss ⟨fixed, mv, t.nUnb, t.nVar + 1⟩
    else if SizePair.unb s then setTotals ss ⟨fixed, t.maxVar, t.nUnb + 1, t.nVar⟩
    else setTotals ss ⟨fixed, t.maxVar, t.nUnb, t.nVar⟩

/-- galley.cpp 217-225: oracles are added to the fixed size (`int += size_t` wraps). -/
def setFixed (t : SetTotals) : Int :=
  let f1 := wrap32 (t.fixed + 2 * t.nVar)
  let f2 := if 1 < t.nUnb then wrap32 (f1 + 2 * t.nUnb) else f1
  if 0 < t.nVar ∧ 0 < t.nUnb then wrap32 (f2 + 2) else f2

/-- Result of the modifier loop (galley.cpp 255-258). -/
structure SetMods where
  mods : List FV
  pred : FV
  unbTot : FV

/-- `(double) o / (double) ORACLE_MAX`, galley.cpp 271. -/
def modifierOf (o : Nat) : FV := FV.div f64 (FV.ofInt f64 o) (FV.ofInt f64 65535)

/-- galley.cpp 255-282: fetch the oracles of the non-fixed stamps. -/
def setModLoop (nUnb : Nat) : List SizePair → FV → FV → M β SetMods
  | [], pred, ut => pure ⟨[], pred, ut⟩
  | s :: ss, pred, ut =>
    if SizePair.fixed s then do
      let r ← setModLoop nUnb ss pred ut
      pure { r with mods := .fin 0 :: r.mods }
    else if SizePair.unb s then
      if nUnb ≤ 1 then do
        let r ← setModLoop nUnb ss pred (FV.add f64 ut (.fin 1))
        pure { r with mods := .fin 1 :: r.mods }
      else do
        let o ← oracle
        let r ← setModLoop nUnb ss pred (FV.add f64 ut (modifierOf o))
        pure { r with mods := modifierOf o :: r.mods }
    else do
      let o ← oracle
      let d ← M.lift (ckInt (s.2 - s.1))
      let r ← setModLoop nUnb ss
        (FV.add f64 pred (FV.mul f64 (FV.ofInt f64 d) (modifierOf o))) ut
      pure { r with mods := modifierOf o :: r.mods }

/-- galley.cpp 283-295: all unbounded modifiers zero are replaced by ones. -/
def setModFix : List SizePair → List FV → FV → List FV × FV
  | s :: ss, m :: ms, ut =>
    if SizePair.unb s then
      let r := setModFix ss ms (FV.add f64 ut (.fin 1))
      (.fin 1 :: r.1, r.2)
    else
      let r := setModFix ss ms ut
      (m :: r.1, r.2)
  | _, _, ut => ([], ut)

/-- galley.cpp 319-350: compute each element size and chop. -/
def setChopLoop (kvar kunb : FV) : List SizePair → List FV → FV → FV → M β (List β)
  | s :: ss, m :: ms, vr, ur =>
    if SizePair.unb s then do
      let len := FV.add f64 (FV.mul f64 m kunb) ur
      let el ← M.lift len.round.toCInt
      let ur' := FV.sub f64 len (FV.ofInt f64 el)
      let el' ← M.lift (ckInt (el + s.1))
      let c ← chop (toSz el')
      let r ← setChopLoop kvar kunb ss ms vr ur'
      pure (c :: r)
    else if SizePair.fixed s then do
      let c ← chop (toSz s.1)
      let r ← setChopLoop kvar kunb ss ms vr ur
      pure (c :: r)
    else do
      let d ← M.lift (ckInt (s.2 - s.1))
      let len := FV.add f64 (FV.mul f64 (FV.mul f64 (FV.ofInt f64 d) m) kvar) vr
      let el ← M.lift len.round.toCInt
      let vr' := FV.sub f64 len (FV.ofInt f64 el)
      let el' ← M.lift (ckInt (el + s.1))
      let c ← chop (toSz el')
      let r ← setChopLoop kvar kunb ss ms vr' ur
      pure (c :: r)
  | _, _, _, _ => pure []

/-- galley.cpp 227-251: the limit for the variated stamps; when both kinds are present one oracle
is fetched for it. -/
def setLimit (t : SetTotals) (avail : Int) : M β Int := do
  let lim0 := if avail < t.maxVar then avail else t.maxVar
  if 0 < t.nVar ∧ 0 < t.nUnb then do
    let o ← oracle
    let p ← M.lift (FV.mul f64 (modifierOf o) (FV.ofInt f64 avail)).round.toCInt
    pure (if p < lim0 then p else lim0)
  else pure lim0

/-- galley.cpp 187-351: `GalleySetBase::extract_internal`. -/
def setSplit (ss : List SizePair) : M β (List β) := do
  let t ← M.lift (setTotals ss ⟨0, 0, 0, 0⟩)
  let fixed := setFixed t
  let b ← M.get
  if size b < toSz fixed then M.throwOOD else do
  let avail := wrap32 ((size b : Int) - fixed)
  let lim ← setLimit t avail
  let r ← setModLoop t.nUnb ss (.fin 0) (.fin 0)
  let (mods, ut) := if FV.beq r.unbTot (.fin 0) then setModFix ss r.mods (.fin 0)
    else (r.mods, r.unbTot)
  let fv ← M.lift (if FV.lt r.pred (FV.ofInt f64 lim) then r.pred.round.toCInt else .ok lim)
  let kvar := if 0 < t.nVar then FV.div f64 (FV.ofInt f64 fv) r.pred else .fin 1
  let fu ← M.lift (ckInt (avail - fv))
  let kunb := if 0 < t.nUnb then FV.div f64 (FV.ofInt f64 fu) ut else .fin 1
  setChopLoop kvar kunb ss mods (.fin 0) (.fin 0)

end

/-! ## Sizes of galleys -/

/-- galley.cpp 29-47: `GalleyVectorBase::minSize` from the stamp's sizes (`ORACLE_SIZE` is a
`size_t`, so the sums wrap). -/
def vecMinSize (mn mx : Int) : Int :=
  if mn = mx then mn
  else if mx = -1 then wrap32 (mn + 4)
  else wrap32 (mn + 2)

/-- galley.cpp 396-431: `GalleySetBase::minSize`. -/
def setMinSize (ss : List SizePair) : Out Int := do
  let res ← ss.foldlM (fun (a : Int) (s : SizePair) => ckInt (a + s.1)) 0
  let nVar := ss.countP SizePair.var
  let nUnb := ss.countP SizePair.unb
  let r1 := if 0 < nVar ∧ 0 < nUnb then wrap32 (res + 2) else res
  let r2 := wrap32 (r1 + 2 * nVar)
  pure (if 1 < nUnb then wrap32 (r2 + 2 * nUnb) else r2)

/-- galley.cpp 433-452: `GalleySetBase::maxSize`. -/
def setMaxSize : List SizePair → Int → Out Int
  | [], res => .ok res
  | s :: ss, res => do
    let r1 ← ckInt (res + s.2)
    let r2 := if SizePair.var s then wrap32 (r1 + 2) else r1
    if SizePair.unb s then .ok (-1) else setMaxSize ss r2

end BS
