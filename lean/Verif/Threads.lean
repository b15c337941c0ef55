import Verif.Asking

/-!
# Threads

A thread that extracts or asks for sizes works on its own blob and its own local variables. What it may share with other
threads are the stamps, and the only members of a stamp that these calls change are `is_recursive` and
`is_in_recursion` (stamp.h 35-36); the `static` oracle stamp of stamp_json.cpp 59 has no members of its own. Here a call is
written down as a program whose steps are the single reads and writes of these two members, so that the steps of several
threads can be taken in any order. All questions that the code asks are there, as in Calls.lean and Asking.lean, and in the same
order. Simplification: reads and writes happen one after the other in some order that all
threads agree on. C++ promises nothing for members that one thread writes while another reads or writes them, so what is
shown to go wrong may also go wrong in other ways.
-/

namespace BS
open BlobLike

/-- The two members of stamp.h 35-36. -/
inductive Member where
  /-- `is_recursive` -/
  | isRec
  /-- `is_in_recursion` -/
  | inRec
deriving DecidableEq

/-- The value of a member (stamp.h 35-36). -/
def Flag.get (f : Flag) : Member → Bool
  | .isRec => f.isRec
  | .inRec => f.inRec

/-- Assignment to a member (stamp.h 35-36). -/
def Flag.put (f : Flag) : Member → Bool → Flag
  | .isRec, v => { f with isRec := v }
  | .inRec, v => { f with inRec := v }

/-- What a thread still has to do: nothing, or to read a member of an object, or to write one (stamp_json.cpp 40-52,
110-119, 130-144: all accesses to the two members). -/
inductive Prog (α : Type) where
  | ret (a : α)
  | read (i : Id) (m : Member) (k : Bool → Prog α)
  | write (i : Id) (m : Member) (v : Bool) (k : Prog α)

/-- One thing after the other. [plumbing of the model] -/
def Prog.bind {α γ : Type} : Prog α → (α → Prog γ) → Prog γ
  | .ret a, f => f a
  | .read i m k, f => .read i m fun v => (k v).bind f
  | .write i m v k, f => .write i m v (k.bind f)

/-- The same as `M`, for a thread with local state `σ`. [plumbing of the model] -/
def P (σ α : Type) : Type := σ → Prog (Out α × σ)

namespace P
variable {σ α γ : Type}

/-- As in `M.bind`: stop at the first outcome that is not a normal return. [plumbing of the model] -/
def bind (m : P σ α) (f : α → P σ γ) : P σ γ := fun s => (m s).bind fun r =>
  match r with
  | (.ok a, s') => f a s'
  | (.outOfData, s') => .ret (.outOfData, s')
  | (.ub r, s') => .ret (.ub r, s')
  | (.abort, s') => .ret (.abort, s')
  | (.fuel, s') => .ret (.fuel, s')

/-- Sequence of statements. [plumbing of the model] -/
instance : Monad (P σ) where
  pure a := fun s => .ret (.ok a, s)
  bind := P.bind

/-- Something that concerns the thread alone: local variables, and the thread's own blob (blob.cpp 27-110).
[plumbing of the model] -/
def own (m : M σ α) : P σ α := fun s => .ret (m s)

/-- Read a member of object `i`. [stamp_json.cpp 40, 110, 130] -/
def read (i : Id) (m : Member) : P σ Bool := fun s => .read i m fun v => .ret (.ok v, s)

/-- Write a member of object `i`. [stamp_json.cpp 42, 47, 48, 52, 112, 119, 132, 138, 144] -/
def write (i : Id) (m : Member) (v : Bool) : P σ Unit := fun s => .write i m v (.ret (.ok (), s))

/-- An outcome. [plumbing of the model] -/
def lift (o : Out α) : P σ α := own (M.lift o)

/-- Undefined behaviour. [plumbing of the model] -/
def ub (r : UB) : P σ α := own (M.ub r)

/-- An outcome other than a normal return. [plumbing of the model] -/
def out (o : Out α) : P σ α := own (M.out o)

/-- `throw OutOfData()` (galley.cpp 83, 233; stamp_json.cpp 91; stamp_lottery.h 201). -/
def throwOOD : P σ α := own M.throwOOD

section
variable {β : Type}

/-- One more call, as counted in Calls.lean and Asking.lean. [a call of stamp.h 38, 39 or 62] -/
def tick : P (Nat × β) Unit := own fun s => (.ok (), (s.1 + 1, s.2))

/-- Something done with the thread's own blob (blob.cpp 27-110). -/
def doB (m : M β α) : P (Nat × β) α := own fun s =>
  let r := m s.2
  (r.1, (s.1, r.2))

/-- On another blob (galley.cpp 57-61, 371-377). -/
def onBlob (c : β) (m : P (Nat × β) α) : P (Nat × β) α := fun s =>
  (m (s.1, c)).bind fun r => .ret (r.1, (r.2.1, s.2))

/-- The extraction of a stamp that has no access to the two members (stamp_arithm.h 35-48, stamp_dict.cpp 46-81, stamp_json.cpp
155-160, stamp_text.cpp 21-56, a client's stamp). -/
def plain (m : XM β α) : P (Nat × β) α := own fun s =>
  let r := m (Flags.init, s.2)
  (r.1, (s.1, r.2.2))

end

end P

section
variable {β : Type}

/-! ## Sizes: Calls.lean by single accesses -/

/-- stamp.h 43: `isFixedSize()`. C++ does not say which of the two calls comes first. -/
def askFixedP (q : Sel → Id → P (Nat × β) Int) (i : Id) : P (Nat × β) Bool := do
  let a ← q .min i
  let b ← q .max i
  pure (a == b)

/-- stamp.h 45: `isUnbounded()`. -/
def askUnbP (q : Sel → Id → P (Nat × β) Int) (i : Id) : P (Nat × β) Bool := do
  let b ← q .max i
  pure (b == -1)

/-- stamp.h 44: `isVariated()`. -/
def askVarP (q : Sel → Id → P (Nat × β) Int) (i : Id) : P (Nat × β) Bool := do
  let f ← askFixedP q i
  if f then pure false
  else do
    let u ← askUnbP q i
    pure (!u)

/-- galley.cpp 29-47: `GalleyVectorBase::minSize`. -/
def vecMinP (q : Sel → Id → P (Nat × β) Int) (c : Id) : P (Nat × β) Int := do
  let f ← askFixedP q c
  if f then q .min c
  else do
    let u ← askUnbP q c
    let mn ← q .min c
    pure (if u then wrap32 (mn + 4) else wrap32 (mn + 2))

/-- galley.cpp 408-421: the loop of `GalleySetBase::minSize`, with `res`, `variated_count`, `unbounded_count`; then
422-430. -/
def setMinP (q : Sel → Id → P (Nat × β) Int) : List Id → Int → Nat → Nat → P (Nat × β) Int
  | [], res, nVar, nUnb =>
    let r1 := if 0 < nVar ∧ 0 < nUnb then wrap32 (res + 2) else res
    let r2 := wrap32 (r1 + 2 * nVar)
    pure (if 1 < nUnb then wrap32 (r2 + 2 * nUnb) else r2)
  | i :: is, res, nVar, nUnb => do
    let mn ← q .min i
    let res' ← P.lift (ckInt (res + mn))
    let v ← askVarP q i
    let u ← askUnbP q i
    setMinP q is res' (if v then nVar + 1 else nVar) (if u then nUnb + 1 else nUnb)

/-- galley.cpp 433-452: `GalleySetBase::maxSize`. -/
def setMaxP (q : Sel → Id → P (Nat × β) Int) : List Id → Int → P (Nat × β) Int
  | [], res => pure res
  | i :: is, res => do
    let mx ← q .max i
    let r1 ← P.lift (ckInt (res + mx))
    let v ← askVarP q i
    let r2 := if v then wrap32 (r1 + 2) else r1
    let u ← askUnbP q i
    if u then pure (-1) else setMaxP q is r2

/-- stamp_json.h 80, README.md 192-200: a sum of sizes. -/
def sumP (q : Sel → Id → P (Nat × β) Int) (sel : Sel) : List Id → Int → P (Nat × β) Int
  | [], res => pure res
  | i :: is, res => do
    let a ← q sel i
    let res' ← P.lift (ckInt (res + a))
    sumP q sel is res'

/-- stamp_json.cpp 113-118. -/
def pickMinP (q : Sel → Id → P (Nat × β) Int) : List Id → Int → P (Nat × β) Int
  | [], res => pure res
  | i :: is, res => do
    let c ← q .min i
    pickMinP q is (if c < res then c else res)

/-- stamp_json.cpp 133-143; `none` = early return of -1. -/
def pickMaxP (q : Sel → Id → P (Nat × β) Int) : List Id → Int → P (Nat × β) (Option Int)
  | [], res => pure (some res)
  | i :: is, res => do
    let c ← q .max i
    if c = -1 then pure none
    else pickMaxP q is (if res < c then c else res)

/-- `minSize()` / `maxSize()` of an object (stamp.h 38-39), every call counted. -/
def sizeP (G : Graph) : Nat → Sel → Id → P (Nat × β) Int
  | 0, _, _ => P.out .fuel
  | n + 1, sel, i => do
    P.tick
    match G i with
    | none => P.ub .nullDeref
    | some nd =>
      match nd with
      -- stamp_arithm.h 29-30
      | .arith t => pure t.size
      -- stamp_dict.h 46-47
      | .dict ws => pure (chooseStampSize ws.length).1
      -- stamp_json.h 60-61
      | .jsonStr => pure 8
      -- stamp_text.h 30-31, 38-39
      | .latin1 | .ascii => pure (match sel with | .min => 1 | .max => -1)
      | .user u => pure (match sel with | .min => u.mn | .max => u.mx)
      -- galley.cpp 29-47, galley.h 44
      | .vec c _ =>
        match sel with
        | .max => pure (-1)
        | .min => vecMinP (sizeP G n) c
      -- galley.cpp 396-452, stamp_math_op.h 56
      | .set cs _ unb =>
        match sel, unb with
        | .max, true => pure (-1)
        | .max, false => setMaxP (sizeP G n) cs 0
        | .min, _ => setMinP (sizeP G n) cs 0 0 0
      -- stamp_json.h 80-81, README.md 192-200
      | .seq cs _ unb =>
        match sel, unb with
        | .max, true => pure (-1)
        | _, _ => sumP (sizeP G n) sel cs 0
      -- stamp_math_op.h 35-36
      | .unary _ c =>
        match sel with
        | .max => pure (-1)
        | .min => sizeP G n .min c
      -- stamp_lottery.h 125-137
      | .lottery _ _ osz smin smax =>
        match sel with
        | .min => P.lift (ckInt (smin + osz))
        | .max => if smax = -1 then pure (-1) else P.lift (ckInt (smax + osz))
      | .picker pool =>
        match sel with
        -- stamp_json.cpp 103-124
        | .min => do
          let v ← P.read i .inRec
          if v then pure (INT_MAX / 2)
          else do
            P.write i .inRec true
            let res ← pickMinP (sizeP G n) pool (INT_MAX / 2)
            P.write i .inRec false
            if res = INT_MAX / 2 then pure (INT_MAX / 2) else pure (wrap32 (res + 2))
        -- stamp_json.cpp 126-147
        | .max => do
          let r ← P.read i .isRec
          if r then pure (-1)
          else do
            let v ← P.read i .inRec
            if v then pure (-1)
            else do
              P.write i .inRec true
              let r ← pickMaxP (sizeP G n) pool 0
              P.write i .inRec false
              match r with
              | none => pure (-1)
              | some res => pure (wrap32 (res + 2))

/-- stamp_json.cpp 43-51, as `isRecLoop`. -/
def isRecLoopP (q : Id → P (Nat × β) Bool) : List Id → P (Nat × β) Bool
  | [] => pure false
  | i :: is => do
    let r ← q i
    if r then pure true else isRecLoopP q is

/-- `isRecursive()` (stamp.h 46, stamp_json.cpp 37-54), as `isRecQ`. -/
def isRecP (G : Graph) : Nat → Id → P (Nat × β) Bool
  | 0, _ => P.own (M.out .fuel)
  | n + 1, i =>
    match G i with
    | none => P.own (M.ub .nullDeref)
    | some (.user u) => pure u.recursive
    | some (.picker pool) => do
      let a ← P.read i .isRec
      if a then pure true
      else do
        let b ← P.read i .inRec
        if b then pure true
        else do
          P.write i .inRec true
          let r ← isRecLoopP (isRecP G n) pool
          if r then P.write i .isRec true
          P.write i .inRec false
          pure r
    | some _ => pure false

end

section
variable {β : Type} [BlobLike β]

/-! ## Extraction: Asking.lean by single accesses -/

/-- galley.cpp 57-61, 371-377. -/
def extractEachP (ex : Id → P (Nat × β) Bytes) : Int → List (Id × β) → P (Nat × β) (List Bytes)
  | _, [] => pure []
  | k, (i, c) :: r => do
    let s ← P.onBlob c (ex i)
    let k' ← P.lift (ckInt (k + 1))
    let ss ← extractEachP ex k' r
    pure (s :: ss)

/-- stamp_json.cpp 166-167, README.md 207-213. -/
def extractSeqP (ex : Id → P (Nat × β) Bytes) : List Id → P (Nat × β) (List Bytes)
  | [] => pure []
  | i :: is => do
    let s ← ex i
    let ss ← extractSeqP ex is
    pure (s :: ss)

/-! ## GalleyVectorBase::extract_internal (galley.cpp 78-183) -/

/-- galley.cpp 147-157: distribute the variable size; the minimum is asked for each part. -/
def unbChopLoopP (q : Sel → Id → P (Nat × β) Int) (c : Id) (total var : Int) : List Nat → FV → P (Nat × β) (List β)
  | [], _ => pure []
  | o :: os, rem => do
    let mn ← q .min c
    let share := FV.mul f32 (FV.div f32 (FV.ofInt f32 o) (FV.ofInt f32 total)) (FV.ofInt f32 var)
    let elf := FV.add f32 (FV.add f32 (FV.ofInt f32 mn) share) rem
    let el ← P.lift elf.toCInt
    let rem' := FV.sub f32 elf (FV.ofInt f32 el)
    let p ← P.doB (chop (toSz el))
    let r ← unbChopLoopP q c total var os rem'
    pure (p :: r)

/-- galley.cpp 97-158: unbounded stamp. -/
def vecUnboundedP (q : Sel → Id → P (Nat × β) Int) (c : Id) : P (Nat × β) (List β) := do
  let b ← P.doB M.get
  let mn1 ← q .min c
  let den := toSz ((toSz mn1 : Int) + 2)
  if den = 0 then P.ub .divByZero else do
  let countMax := toSz ((size b : Int) - 2) / den
  let co ← P.doB oracle
  let ct := countTarget countMax co
  let (os, tot) ← P.doB (sizeOracles ct 0)
  let b' ← P.doB M.get
  let os' := if tot = 0 then List.replicate ct 1 else os
  let tot' : Int := if tot = 0 then ct else tot
  let dataSize := wrap32 (size b')
  let mn2 ← q .min c
  let fixedSize ← P.lift (ckInt (mn2 * ct))
  let var ← P.lift (ckInt (dataSize - fixedSize))
  unbChopLoopP q c tot' var os' (.fin 0)

/-- galley.cpp 166-180: variated stamp, the `while(1)` loop. -/
def variatedLoopP (q : Sel → Id → P (Nat × β) Int) (c : Id) : Nat → P (Nat × β) (List β)
  | 0 => P.out .fuel
  | n + 1 => do
    let mn1 ← q .min c
    let need ← P.lift (ckInt (mn1 + 2))
    let b ← P.doB M.get
    if size b < toSz need then pure [] else do
    let o ← P.doB oracle
    let mn2 ← q .min c
    let mx ← q .max c
    let s ← P.lift (oracleProportion o (toSz mn2) (toSz mx))
    let sz := wrap32 s
    let b' ← P.doB M.get
    let sz' := if size b' < toSz sz then wrap32 (size b') else sz
    let p ← P.doB (chop (toSz sz'))
    let r ← variatedLoopP q c n
    pure (p :: r)

/-- galley.cpp 78-183: `GalleyVectorBase::extract_internal`. -/
def vecSplitP (fuel : Nat) (q : Sel → Id → P (Nat × β) Int) (c : Id) : P (Nat × β) (List β) := do
  let b ← P.doB M.get
  let mn ← q .min c
  if size b < toSz mn then P.throwOOD
  else do
  let f ← askFixedP q c
  if f then do
    let sz ← q .min c
    P.doB (fixedLoop fuel sz)
  else do
  let u ← askUnbP q c
  if u then vecUnboundedP q c
  else do
    let mn2 ← q .min c
    let mx2 ← q .max c
    let _ ← P.lift (ckInt (mx2 - mn2))
    variatedLoopP q c fuel

/-! ## GalleySetBase::extract_internal (galley.cpp 187-351) -/

/-- galley.cpp 205-210: the variable part of a stamp is added. -/
def setAddVarP (q : Sel → Id → P (Nat × β) Int) (i : Id) (v : Bool) (sum : Int) : P (Nat × β) Int :=
  if v then do
    let mx ← q .max i
    let mn ← q .min i
    let d ← P.lift (ckInt (mx - mn))
    P.lift (ckInt (sum + d))
  else pure sum

/-- galley.cpp 201-216: the first loop. -/
def setTotalsP (q : Sel → Id → P (Nat × β) Int) : List Id → SetTotals → P (Nat × β) SetTotals
  | [], t => pure t
  | i :: is, t => do
    let mn ← q .min i
    let fixed ← P.lift (ckInt (t.fixed + mn))
    let v ← askVarP q i
    let mv ← setAddVarP q i v t.maxVar
    let u ← askUnbP q i
    setTotalsP q is ⟨fixed, mv, if u then t.nUnb + 1 else t.nUnb, if v then t.nVar + 1 else t.nVar⟩

/-- galley.cpp 265-272: one modifier. -/
def setModifierP (nUnb : Nat) (u : Bool) : P (Nat × β) FV :=
  if u ∧ nUnb ≤ 1 then pure (.fin 1)
  else do
    let o ← P.doB oracle
    pure (modifierOf o)

/-- galley.cpp 255-282: fetch the oracles of the non-fixed stamps. -/
def setModLoopP (q : Sel → Id → P (Nat × β) Int) (nUnb : Nat) : List Id → FV → FV → P (Nat × β) SetMods
  | [], pred, ut => pure ⟨[], pred, ut⟩
  | i :: is, pred, ut => do
    let f ← askFixedP q i
    if f then do
      let r ← setModLoopP q nUnb is pred ut
      pure { r with mods := .fin 0 :: r.mods }
    else do
      let u ← askUnbP q i
      let m ← setModifierP nUnb u
      let u2 ← askUnbP q i
      if u2 then do
        let r ← setModLoopP q nUnb is pred (FV.add f64 ut m)
        pure { r with mods := m :: r.mods }
      else do
        let mx ← q .max i
        let mn ← q .min i
        let d ← P.lift (ckInt (mx - mn))
        let r ← setModLoopP q nUnb is (FV.add f64 pred (FV.mul f64 (FV.ofInt f64 d) m)) ut
        pure { r with mods := m :: r.mods }

/-- galley.cpp 286-294: all unbounded modifiers zero are replaced by ones. -/
def setModFixP (q : Sel → Id → P (Nat × β) Int) : List Id → List FV → FV → P (Nat × β) (List FV × FV)
  | i :: is, m :: ms, ut => do
    let u ← askUnbP q i
    if u then do
      let r ← setModFixP q is ms (FV.add f64 ut (.fin 1))
      pure (.fin 1 :: r.1, r.2)
    else do
      let r ← setModFixP q is ms ut
      pure (m :: r.1, r.2)
  | _, _, ut => pure ([], ut)

/-- galley.cpp 328-332: `el_size` is not initialised; here it starts as 0. -/
def setElFixedP (q : Sel → Id → P (Nat × β) Int) (i : Id) : P (Nat × β) Int := do
  let f ← askFixedP q i
  if f then q .min i else pure 0

/-- galley.cpp 333-339: the size of a variated stamp replaces what was set; the remainder. -/
def setElVarP (q : Sel → Id → P (Nat × β) Int) (i : Id) (m kvar vr : FV) (el1 : Int) : P (Nat × β) (Int × FV) := do
  let v ← askVarP q i
  if v then do
    let mx ← q .max i
    let mn ← q .min i
    let d ← P.lift (ckInt (mx - mn))
    let len := FV.add f64 (FV.mul f64 (FV.mul f64 (FV.ofInt f64 d) m) kvar) vr
    let el ← P.lift len.round.toCInt
    let mn2 ← q .min i
    let el' ← P.lift (ckInt (el + mn2))
    pure (el', FV.sub f64 len (FV.ofInt f64 el))
  else pure (el1, vr)

/-- galley.cpp 340-346: the size of an unbounded stamp replaces what was set; the remainder. -/
def setElUnbP (q : Sel → Id → P (Nat × β) Int) (i : Id) (m kunb ur : FV) (el2 : Int) : P (Nat × β) (Int × FV) := do
  let u ← askUnbP q i
  if u then do
    let len := FV.add f64 (FV.mul f64 m kunb) ur
    let el ← P.lift len.round.toCInt
    let mn ← q .min i
    let el' ← P.lift (ckInt (el + mn))
    pure (el', FV.sub f64 len (FV.ofInt f64 el))
  else pure (el2, ur)

/-- galley.cpp 319-350: compute each element size and chop. -/
def setChopLoopP (q : Sel → Id → P (Nat × β) Int) (kvar kunb : FV) : List Id → List FV → FV → FV → P (Nat × β) (List β)
  | i :: is, m :: ms, vr, ur => do
    let el1 ← setElFixedP q i
    let r2 ← setElVarP q i m kvar vr el1
    let r3 ← setElUnbP q i m kunb ur r2.1
    let c ← P.doB (chop (toSz r3.1))
    let r ← setChopLoopP q kvar kunb is ms r2.2 r3.2
    pure (c :: r)
  | _, _, _, _ => pure []

/-- galley.cpp 283-295: what the modifier loop left, corrected. -/
def setModsP (q : Sel → Id → P (Nat × β) Int) (cs : List Id) (r : SetMods) : P (Nat × β) (List FV × FV) :=
  if FV.beq r.unbTot (.fin 0) then setModFixP q cs r.mods (.fin 0) else pure (r.mods, r.unbTot)

/-- galley.cpp 187-351: `GalleySetBase::extract_internal`. -/
def setSplitP (q : Sel → Id → P (Nat × β) Int) (cs : List Id) : P (Nat × β) (List β) := do
  let t ← setTotalsP q cs ⟨0, 0, 0, 0⟩
  let fixed := setFixed t
  let b ← P.doB M.get
  if size b < toSz fixed then P.throwOOD else do
  let avail := wrap32 ((size b : Int) - fixed)
  let lim ← P.doB (setLimit t avail)
  let r ← setModLoopP q t.nUnb cs (.fin 0) (.fin 0)
  let mu ← setModsP q cs r
  let fv ← P.lift (if FV.lt r.pred (FV.ofInt f64 lim) then r.pred.round.toCInt else .ok lim)
  let kvar := if 0 < t.nVar then FV.div f64 (FV.ofInt f64 fv) r.pred else .fin 1
  let fu ← P.lift (ckInt (avail - fv))
  let kunb := if 0 < t.nUnb then FV.div f64 (FV.ofInt f64 fu) mu.2 else .fin 1
  setChopLoopP q kvar kunb cs mu.1 (.fin 0) (.fin 0)

/-! ## Choices -/

/-- stamp_json.cpp 69-73: a stamp that can take everything. `maxSize()` is asked a second time if it is not -1. -/
def takesAllP (q : Sel → Id → P (Nat × β) Int) (i : Id) (sz : Nat) : P (Nat × β) Bool := do
  let u ← askUnbP q i
  if u then pure true
  else do
    let mx ← q .max i
    pure (decide (sz ≤ toSz mx))

/-- stamp_json.cpp 62-78: the two pools of `PoolPickerStamp::ExtractStr`. -/
def pickFilterP (q : Sel → Id → P (Nat × β) Int) : List Id → P (Nat × β) (List Id × List Id)
  | [] => pure ([], [])
  | i :: is => do
    let mn ← q .min i
    let b ← P.doB M.get
    if toSz mn ≤ size b then do
      let all ← takesAllP q i (size b)
      let r ← pickFilterP q is
      pure (if all then (i :: r.1, i :: r.2) else (i :: r.1, r.2))
    else pickFilterP q is

/-- stamp_lottery.h 61-71 (`StampLottery4Recursion`) and 45 (`StampLottery`): `soft_maxsize_filter`. -/
def softFilterP (rec4 : Bool) (q : Sel → Id → P (Nat × β) Int) (i : Id) (dataSize : Int) : P (Nat × β) Bool :=
  if !rec4 then pure true
  else do
    let u ← askUnbP q i
    if u then pure true
    else do
      let mx1 ← q .max i
      if dataSize < mx1 then pure true
      else do
        let mn ← q .min i
        let mx2 ← q .max i
        let s ← P.lift (ckInt (mn + mx2))
        pure (decide (dataSize < s))

/-- stamp_lottery.h 180-188 and, without the soft filter, 189-198. -/
def lotFilterP (rec4 : Bool) (q : Sel → Id → P (Nat × β) Int) : List Id → P (Nat × β) (List Id)
  | [] => pure []
  | i :: is => do
    let mn ← q .min i
    let b ← P.doB M.get
    if size b < toSz mn then lotFilterP rec4 q is
    else do
      let ok ← softFilterP rec4 q i (wrap32 (size b))
      let r ← lotFilterP rec4 q is
      pure (if ok then i :: r else r)

/-- stamp_lottery.h 189-198: the second filter, if the first left nothing. -/
def lotAgainP (q : Sel → Id → P (Nat × β) Int) (stamps l1 : List Id) : P (Nat × β) (List Id) :=
  if l1.isEmpty then lotFilterP false q stamps else pure l1

/-! ## All stamps -/

/-- `ExtractStr` of an object (stamp.h 62), with every question of the code, and every call counted. -/
def extractP (G : Graph) : Nat → Id → P (Nat × β) Bytes
  | 0, _ => P.out .fuel
  | n + 1, i => do
    P.tick
    match G i with
    | none => P.ub .nullDeref
    | some nd =>
      match nd with
      -- stamp_enumerator.cpp 26-41, stamp_text.h 54-69, galley.cpp 51-63
      | .vec c join => do
        let blobs ← vecSplitP n (sizeP G n) c
        let xs ← extractEachP (extractP G n) 0 (blobs.map fun b => (c, b))
        pure (join xs)
      -- galley.cpp 366-379, stamp_math_op.cpp 29-34
      | .set cs join _ => do
        let blobs ← setSplitP (sizeP G n) cs
        let xs ← extractEachP (extractP G n) 0 (cs.zip blobs)
        pure (join xs)
      -- stamp_json.cpp 163-169, README.md 207-213
      | .seq cs join _ => do
        let xs ← extractSeqP (extractP G n) cs
        pure (join xs)
      -- stamp_math_op.cpp 22-26
      | .unary op c => do
        let x ← extractP G n c
        pure (unaryText op x)
      -- stamp_lottery.h 140-208
      | .lottery rec4 stamps osz _ _ => do
        let o ← P.doB (uOracle osz)
        let l1 ← lotFilterP rec4 (sizeP G n) stamps
        let l ← lotAgainP (sizeP G n) stamps l1
        if l.isEmpty then P.throwOOD
        else do
          let k ← P.lift (scaledIndex o (uMax osz) l.length)
          let j ← P.lift (vecGet l k)
          extractP G n j
      -- stamp_json.cpp 56-101
      | .picker pool => do
        let o ← P.doB oracle
        let r ← pickFilterP (sizeP G n) pool
        let l := if r.2.isEmpty then r.1 else r.2
        if l.isEmpty then do
          let mn ← sizeP G (n + 1) .min i
          let b ← P.doB M.get
          if size b < toSz mn then P.throwOOD else P.out .abort
        else do
          let k ← P.lift (oracleProportion o 0 (toSz ((l.length : Int) - 1)))
          let j ← P.lift (vecGet l k)
          extractP G n j
      -- the other stamps ask nothing and call no other stamp's `ExtractStr`
      | _ => P.plain (extract G (n + 1) i)

end

/-! ## Running threads -/

/-- `member = v` seen by all threads (stamp.h 35-36). -/
def Flags.put (fl : Flags) (i : Id) (m : Member) (v : Bool) : Flags := fun j => if j = i then (fl i).put m v else fl j

/-- One step of a program. A finished program stays as it is. [C++ itself; stamp_json.cpp 40-52, 110-144] -/
def Prog.step {α : Type} : Prog α → Flags → Prog α × Flags
  | .ret a, fl => (.ret a, fl)
  | .read i m k, fl => (k ((fl i).get m), fl)
  | .write i m v k, fl => (k, fl.put i m v)

/-- The result of a finished program. [plumbing of the model] -/
def Prog.result? {α : Type} : Prog α → Option α
  | .ret a => some a
  | _ => none

/-- The accesses of a program that runs alone, one after the other: which object, which member, and what is written (if
anything). [C++ itself; stamp_json.cpp 40-52, 110-144] -/
def Prog.accesses {α : Type} : Prog α → Flags → List (Id × Member × Option Bool)
  | .ret _, _ => []
  | .read i m k, fl => (i, m, none) :: (k ((fl i).get m)).accesses fl
  | .write i m v k, fl => (i, m, some v) :: k.accesses (fl.put i m v)

/-- Several threads: the members of all objects, which they share, and what each thread still has to do.
[C++ itself; stamp.h 35-36] -/
structure Threads (α : Type) where
  flags : Flags
  todo : Nat → Prog α

/-- Thread `t` takes one step. [C++ itself] -/
def Threads.step {α : Type} (c : Threads α) (t : Nat) : Threads α :=
  let r := (c.todo t).step c.flags
  ⟨r.2, fun u => if u = t then r.1 else c.todo u⟩

/-- A schedule: which thread takes the next step, again and again. [C++ itself] -/
def Threads.run {α : Type} (c : Threads α) : List Nat → Threads α
  | [] => c
  | t :: ts => (c.step t).run ts

/-! ## What threads do -/

/-- A call of a thread: `ExtractStr` on a blob of its own (stamp.h 62), `minSize()` or `maxSize()` (stamp.h 38-39),
`isRecursive()` (stamp.h 46). -/
inductive Job where
  | extract (i : Id) (b : Blob)
  | size (sel : Sel) (i : Id)
  | isRec (i : Id)

/-- What comes back: an outcome, and after an extraction what is left of the blob. [stamp.h 38-39, 46, 62] -/
inductive Answer where
  | text (o : Out Bytes) (left : Blob)
  | size (o : Out Int)
  | isRec (o : Out Bool)
deriving DecidableEq

/-- The steps of a call. A size query has no blob; the empty one stands there and plays no part.
[stamp.h 38-39, 46, 62] -/
def Job.prog (G : Graph) (n : Nat) : Job → Prog Answer
  | .extract i b => (extractP G n i (0, b)).bind fun r => .ret (.text r.1 r.2.2)
  | .size sel i => (sizeP G n sel i (0, ([] : ABlob))).bind fun r => .ret (.size r.1)
  | .isRec i => (isRecP G n i (0, ([] : ABlob))).bind fun r => .ret (.isRec r.1)

/-- What a thread does: it makes calls, and goes on according to what came back. An exception is something that comes back,
and the thread may go on. [any program that uses stamp.h] -/
inductive Client where
  | done
  | call (j : Job) (next : Answer → Client)

/-- The steps of a thread; the result is the list of what came back. [any program that uses stamp.h] -/
def Client.prog (G : Graph) (n : Nat) : Client → Prog (List Answer)
  | .done => .ret []
  | .call j next => (j.prog G n).bind fun a => ((next a).prog G n).bind fun as => .ret (a :: as)

/-- All threads at the beginning; a thread that is not there has nothing to do. [any program that uses stamp.h] -/
def Threads.start (G : Graph) (n : Nat) (fl : Flags) (c : Nat → Client) : Threads (List Answer) :=
  ⟨fl, fun t => (c t).prog G n⟩

end BS
