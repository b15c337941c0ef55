import Verif.Calls

/-!
# Extraction call by call

`extract` (Graph.lean) asks each stamp that takes part for its two sizes once, before it splits the blob. The code asks
for a size each time it needs one. Here the galleys, the pool picker and the lottery are written down with all their
questions, in the order of the code, and all calls of `minSize()`, `maxSize()` and `ExtractStr` are counted. Left out of
the count: calls of the stamps for the oracles, which are local variables of their own type.
-/

namespace BS
open BlobLike

section
variable {β : Type} [BlobLike β]

/-- A question, asked while extracting.
[plumbing of the model, for the calls in galley.cpp 78-360 and stamp_lottery.h 140-210] -/
def askW {α : Type} (m : CM α) : WM β α := fun w =>
  let r := m (w.2.1, w.1)
  (r.1, (r.2.2, (r.2.1, w.2.2)))

/-- Something done with the blob, without a question.
[plumbing of the model, for `Chop` and the oracles in galley.cpp 78-360] -/
def doB {α : Type} (m : M β α) : WM β α := liftW (liftB m)

/-! ## GalleyVectorBase::extract_internal (galley.cpp 78-183) -/

/-- galley.cpp 147-157: distribute the variable size; the minimum is asked for each part. -/
def unbChopLoopA (q : Sel → Id → CM Int) (c : Id) (total var : Int) : List Nat → FV → WM β (List β)
  | [], _ => pure []
  | o :: os, rem => do
    let mn ← askW (q .min c)
    let share := FV.mul f32 (FV.div f32 (FV.ofInt f32 o) (FV.ofInt f32 total)) (FV.ofInt f32 var)
    let elf := FV.add f32 (FV.add f32 (FV.ofInt f32 mn) share) rem
    let el ← M.lift elf.toCInt
    let rem' := FV.sub f32 elf (FV.ofInt f32 el)
    let p ← doB (chop (toSz el))
    let r ← unbChopLoopA q c total var os rem'
    pure (p :: r)

/-- galley.cpp 97-158: unbounded stamp. -/
def vecUnboundedA (q : Sel → Id → CM Int) (c : Id) : WM β (List β) := do
  let b ← doB M.get
  let mn1 ← askW (q .min c)
  let den := toSz ((toSz mn1 : Int) + 2)
  if den = 0 then M.ub .divByZero else do
  let countMax := toSz ((size b : Int) - 2) / den
  let co ← doB oracle
  let ct := countTarget countMax co
  let (os, tot) ← doB (sizeOracles ct 0)
  let b' ← doB M.get
  let os' := if tot = 0 then List.replicate ct 1 else os
  let tot' : Int := if tot = 0 then ct else tot
  let dataSize := wrap32 (size b')
  let mn2 ← askW (q .min c)
  let fixedSize ← M.lift (ckInt (mn2 * ct))
  let var ← M.lift (ckInt (dataSize - fixedSize))
  unbChopLoopA q c tot' var os' (.fin 0)

/-- galley.cpp 166-180: variated stamp, the `while(1)` loop. -/
def variatedLoopA (q : Sel → Id → CM Int) (c : Id) : Nat → WM β (List β)
  | 0 => M.out .fuel
  | n + 1 => do
    let mn1 ← askW (q .min c)
    let need ← M.lift (ckInt (mn1 + 2))
    let b ← doB M.get
    if size b < toSz need then pure [] else do
    let o ← doB oracle
    let mn2 ← askW (q .min c)
    let mx ← askW (q .max c)
    let s ← M.lift (oracleProportion o (toSz mn2) (toSz mx))
    let sz := wrap32 s
    let b' ← doB M.get
    let sz' := if size b' < toSz sz then wrap32 (size b') else sz
    let p ← doB (chop (toSz sz'))
    let r ← variatedLoopA q c n
    pure (p :: r)

/-- galley.cpp 78-183: `GalleyVectorBase::extract_internal`. -/
def vecSplitA (fuel : Nat) (q : Sel → Id → CM Int) (c : Id) : WM β (List β) := do
  let b ← doB M.get
  let mn ← askW (q .min c)
  if size b < toSz mn then M.throwOOD
  else do
  let f ← askW (askFixed q c)
  if f then do
    let sz ← askW (q .min c)
    doB (fixedLoop fuel sz)
  else do
  let u ← askW (askUnb q c)
  if u then vecUnboundedA q c
  else do
    let mn2 ← askW (q .min c)
    let mx2 ← askW (q .max c)
    let _ ← M.lift (ckInt (mx2 - mn2))
    variatedLoopA q c fuel

/-! ## GalleySetBase::extract_internal (galley.cpp 187-351) -/

/-- galley.cpp 205-210: the variable part of a stamp is added. -/
def setAddVarA (q : Sel → Id → CM Int) (i : Id) (v : Bool) (sum : Int) : WM β Int :=
  if v then do
    let mx ← askW (q .max i)
    let mn ← askW (q .min i)
    let d ← M.lift (ckInt (mx - mn))
    M.lift (ckInt (sum + d))
  else pure sum

/-- galley.cpp 201-216: the first loop. -/
def setTotalsA (q : Sel → Id → CM Int) : List Id → SetTotals → WM β SetTotals
  | [], t => pure t
  | i :: is, t => do
    let mn ← askW (q .min i)
    let fixed ← M.lift (ckInt (t.fixed + mn))
    let v ← askW (askVar q i)
    let mv ← setAddVarA q i v t.maxVar
    let u ← askW (askUnb q i)
    setTotalsA q is ⟨fixed, mv, if u then t.nUnb + 1 else t.nUnb, if v then t.nVar + 1 else t.nVar⟩

/-- galley.cpp 265-272: one modifier. -/
def setModifierA (nUnb : Nat) (u : Bool) : WM β FV :=
  if u ∧ nUnb ≤ 1 then pure (.fin 1)
  else do
    let o ← doB oracle
    pure (modifierOf o)

/-- galley.cpp 255-282: fetch the oracles of the non-fixed stamps. -/
def setModLoopA (q : Sel → Id → CM Int) (nUnb : Nat) : List Id → FV → FV → WM β SetMods
  | [], pred, ut => pure ⟨[], pred, ut⟩
  | i :: is, pred, ut => do
    let f ← askW (askFixed q i)
    if f then do
      let r ← setModLoopA q nUnb is pred ut
      pure { r with mods := .fin 0 :: r.mods }
    else do
      let u ← askW (askUnb q i)
      let m ← setModifierA nUnb u
      let u2 ← askW (askUnb q i)
      if u2 then do
        let r ← setModLoopA q nUnb is pred (FV.add f64 ut m)
        pure { r with mods := m :: r.mods }
      else do
        let mx ← askW (q .max i)
        let mn ← askW (q .min i)
        let d ← M.lift (ckInt (mx - mn))
        let r ← setModLoopA q nUnb is (FV.add f64 pred (FV.mul f64 (FV.ofInt f64 d) m)) ut
        pure { r with mods := m :: r.mods }

/-- galley.cpp 286-294: all unbounded modifiers zero are replaced by ones. -/
def setModFixA (q : Sel → Id → CM Int) : List Id → List FV → FV → WM β (List FV × FV)
  | i :: is, m :: ms, ut => do
    let u ← askW (askUnb q i)
    if u then do
      let r ← setModFixA q is ms (FV.add f64 ut (.fin 1))
      pure (.fin 1 :: r.1, r.2)
    else do
      let r ← setModFixA q is ms ut
      pure (m :: r.1, r.2)
  | _, _, ut => pure ([], ut)

/-- galley.cpp 328-332: `el_size` is not initialised; here it starts as 0. -/
def setElFixedA (q : Sel → Id → CM Int) (i : Id) : WM β Int := do
  let f ← askW (askFixed q i)
  if f then askW (q .min i) else pure 0

/-- galley.cpp 333-339: the size of a variated stamp replaces what was set; the remainder. -/
def setElVarA (q : Sel → Id → CM Int) (i : Id) (m kvar vr : FV) (el1 : Int) : WM β (Int × FV) := do
  let v ← askW (askVar q i)
  if v then do
    let mx ← askW (q .max i)
    let mn ← askW (q .min i)
    let d ← M.lift (ckInt (mx - mn))
    let len := FV.add f64 (FV.mul f64 (FV.mul f64 (FV.ofInt f64 d) m) kvar) vr
    let el ← M.lift len.round.toCInt
    let mn2 ← askW (q .min i)
    let el' ← M.lift (ckInt (el + mn2))
    pure (el', FV.sub f64 len (FV.ofInt f64 el))
  else pure (el1, vr)

/-- galley.cpp 340-346: the size of an unbounded stamp replaces what was set; the remainder. -/
def setElUnbA (q : Sel → Id → CM Int) (i : Id) (m kunb ur : FV) (el2 : Int) : WM β (Int × FV) := do
  let u ← askW (askUnb q i)
  if u then do
    let len := FV.add f64 (FV.mul f64 m kunb) ur
    let el ← M.lift len.round.toCInt
    let mn ← askW (q .min i)
    let el' ← M.lift (ckInt (el + mn))
    pure (el', FV.sub f64 len (FV.ofInt f64 el))
  else pure (el2, ur)

/-- galley.cpp 319-350: compute each element size and chop. -/
def setChopLoopA (q : Sel → Id → CM Int) (kvar kunb : FV) : List Id → List FV → FV → FV → WM β (List β)
  | i :: is, m :: ms, vr, ur => do
    let el1 ← setElFixedA q i
    let r2 ← setElVarA q i m kvar vr el1
    let r3 ← setElUnbA q i m kunb ur r2.1
    let c ← doB (chop (toSz r3.1))
    let r ← setChopLoopA q kvar kunb is ms r2.2 r3.2
    pure (c :: r)
  | _, _, _, _ => pure []

/-- galley.cpp 283-295: what the modifier loop left, corrected. -/
def setModsA (q : Sel → Id → CM Int) (cs : List Id) (r : SetMods) : WM β (List FV × FV) :=
  if FV.beq r.unbTot (.fin 0) then setModFixA q cs r.mods (.fin 0) else pure (r.mods, r.unbTot)

/-- galley.cpp 187-351: `GalleySetBase::extract_internal`. -/
def setSplitA (q : Sel → Id → CM Int) (cs : List Id) : WM β (List β) := do
  let t ← setTotalsA q cs ⟨0, 0, 0, 0⟩
  let fixed := setFixed t
  let b ← doB M.get
  if size b < toSz fixed then M.throwOOD else do
  let avail := wrap32 ((size b : Int) - fixed)
  let lim ← doB (setLimit t avail)
  let r ← setModLoopA q t.nUnb cs (.fin 0) (.fin 0)
  let mu ← setModsA q cs r
  let fv ← M.lift (if FV.lt r.pred (FV.ofInt f64 lim) then r.pred.round.toCInt else .ok lim)
  let kvar := if 0 < t.nVar then FV.div f64 (FV.ofInt f64 fv) r.pred else .fin 1
  let fu ← M.lift (ckInt (avail - fv))
  let kunb := if 0 < t.nUnb then FV.div f64 (FV.ofInt f64 fu) mu.2 else .fin 1
  setChopLoopA q kvar kunb cs mu.1 (.fin 0) (.fin 0)

/-! ## Choices -/

/-- stamp_json.cpp 69-73: a stamp that can take everything. `maxSize()` is asked a second time if it is not -1. -/
def takesAllA (q : Sel → Id → CM Int) (i : Id) (sz : Nat) : WM β Bool := do
  let u ← askW (askUnb q i)
  if u then pure true
  else do
    let mx ← askW (q .max i)
    pure (decide (sz ≤ toSz mx))

/-- stamp_json.cpp 62-78: the two pools of `PoolPickerStamp::ExtractStr`. -/
def pickFilterA (q : Sel → Id → CM Int) : List Id → WM β (List Id × List Id)
  | [] => pure ([], [])
  | i :: is => do
    let mn ← askW (q .min i)
    let b ← doB M.get
    if toSz mn ≤ size b then do
      let all ← takesAllA q i (size b)
      let r ← pickFilterA q is
      pure (if all then (i :: r.1, i :: r.2) else (i :: r.1, r.2))
    else pickFilterA q is

/-- stamp_lottery.h 61-71 (`StampLottery4Recursion`) and 45 (`StampLottery`): `soft_maxsize_filter`. -/
def softFilterA (rec4 : Bool) (q : Sel → Id → CM Int) (i : Id) (dataSize : Int) : WM β Bool :=
  if !rec4 then pure true
  else do
    let u ← askW (askUnb q i)
    if u then pure true
    else do
      let mx1 ← askW (q .max i)
      if dataSize < mx1 then pure true
      else do
        let mn ← askW (q .min i)
        let mx2 ← askW (q .max i)
        let s ← M.lift (ckInt (mn + mx2))
        pure (decide (dataSize < s))

/-- stamp_lottery.h 180-188 and, without the soft filter, 189-198. -/
def lotFilterA (rec4 : Bool) (q : Sel → Id → CM Int) : List Id → WM β (List Id)
  | [] => pure []
  | i :: is => do
    let mn ← askW (q .min i)
    let b ← doB M.get
    if size b < toSz mn then lotFilterA rec4 q is
    else do
      let ok ← softFilterA rec4 q i (wrap32 (size b))
      let r ← lotFilterA rec4 q is
      pure (if ok then i :: r else r)

/-- stamp_lottery.h 189-198: the second filter, if the first left nothing. -/
def lotAgainA (q : Sel → Id → CM Int) (stamps l1 : List Id) : WM β (List Id) :=
  if l1.isEmpty then lotFilterA false q stamps else pure l1

/-! ## All stamps -/

/-- `ExtractStr` of an object (stamp.h 62), with every question of the code, and every call counted. -/
def extractA (G : Graph) : Nat → Id → WM β Bytes
  | 0, _ => M.out .fuel
  | n + 1, i => do
    tickW
    match G i with
    | none => M.ub .nullDeref
    | some nd =>
      match nd with
      -- stamp_enumerator.cpp 26-41, stamp_text.h 54-69, galley.cpp 51-63
      | .vec c join => do
        let blobs ← vecSplitA n (sizeC G n) c
        let xs ← extractEachW (extractA G n) 0 (blobs.map fun b => (c, b))
        pure (join xs)
      -- galley.cpp 366-379, stamp_math_op.cpp 29-34
      | .set cs join _ => do
        let blobs ← setSplitA (sizeC G n) cs
        let xs ← extractEachW (extractA G n) 0 (cs.zip blobs)
        pure (join xs)
      -- stamp_json.cpp 163-169, README.md 207-213
      | .seq cs join _ => do
        let xs ← extractSeqW (extractA G n) cs
        pure (join xs)
      -- stamp_math_op.cpp 22-26
      | .unary op c => do
        let x ← extractA G n c
        pure (unaryText op x)
      -- stamp_lottery.h 140-208
      | .lottery rec4 stamps osz _ _ => do
        let o ← doB (uOracle osz)
        let l1 ← lotFilterA rec4 (sizeC G n) stamps
        let l ← lotAgainA (sizeC G n) stamps l1
        if l.isEmpty then M.throwOOD
        else do
          let k ← M.lift (scaledIndex o (uMax osz) l.length)
          let j ← M.lift (vecGet l k)
          extractA G n j
      -- stamp_json.cpp 56-101
      | .picker pool => do
        let o ← doB oracle
        let r ← pickFilterA (sizeC G n) pool
        let l := if r.2.isEmpty then r.1 else r.2
        if l.isEmpty then do
          let mn ← askW (sizeC G (n + 1) .min i)
          let b ← doB M.get
          if size b < toSz mn then M.throwOOD else M.out .abort
        else do
          let k ← M.lift (oracleProportion o 0 (toSz ((l.length : Int) - 1)))
          let j ← M.lift (vecGet l k)
          extractA G n j
      -- the other stamps ask nothing and call no other stamp's `ExtractStr`
      | _ => liftW (extract G (n + 1) i)

end

end BS
