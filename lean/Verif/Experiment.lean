import Verif.Dict

/-!
# The recursion experiment of t/320-galley-recursion-experiments.cpp
-/

namespace BS
open BlobLike

/-! ## `fit_sizes` (lines 110-135) -/

/-- t/320 124-132: the second loop. The seeds are read as `int`; `rem` is `remainder`, `sum` is `res_sum`, an `int` to
which an `unsigned int` is added. -/
def fitLoop (prop : FV) : List Int → FV → Int → Out (List Nat × Int)
  | [], _, sum => .ok ([], sum)
  | s :: ss, rem, sum => do
    let d := FV.add f64 (FV.mul f64 (FV.ofInt f64 s) prop) rem
    let size ← FV.toIntRange 0 4294967295 d.round
    let r ← fitLoop prop ss (FV.sub f64 d (FV.ofInt f64 size)) (wrap32 (sum + size))
    .ok (size.toNat :: r.1, r.2)

/-- t/320 110-135: `fit_sizes`. Seeds and `fit_in` are `unsigned int`s; a failed `assert` ends the program. -/
def fitSizes (seeds : List Nat) (fit : Nat) : Out (List Nat) := do
  let ss := seeds.map fun (s : Nat) => wrap32 (s : Int)
  let prop := FV.div f64 (FV.ofInt f64 fit) (FV.ofInt f64 ss.sum)
  let r ← fitLoop prop ss (.fin 0) 0
  if r.2 % 4294967296 = (fit : Int) then .ok r.1 else .abort

/-- t/320 387-389: `fit_sizes({1,20,30,10,1}, 6)`. -/
example : fitSizes [1, 20, 30, 10, 1] 6 = .ok [0, 2, 3, 1, 0] := by decide +kernel

/-! ## `VariantPicker` (lines 65-108) -/

/-- `a <= b` for floating values.
[C++ itself, not a function of the library; needed for t/320-galley-recursion-experiments.cpp 86-94] -/
def FV.le (a b : FV) : Bool := FV.lt a b || FV.beq a b

/-- t/320 86-94: the inner loop over `left` more variants, the next being `i`. It gives the variant at which it stops,
if it does, and `sum`. -/
def variantLoop (step : FV) (seed : Nat) : Nat → Nat → FV → Option Nat × FV
  | 0, _, sum => (none, sum)
  | left + 1, i, sum =>
    let sum' := FV.add f64 sum step
    if FV.le (FV.ofInt f64 seed) sum' then (some i, sum') else variantLoop step seed left (i + 1) sum'

/-- What `VariantPicker` does: the place of the object it returns, and the place of the object whose
`variant_selected` it sets, and to what. -/
structure Picked where
  returned : Nat
  marked : Nat
  variant : Nat
deriving DecidableEq

/-- t/320 81-107: the outer loop and what follows it. `place` is the place of the next object, `last` the place and the
number of variants of the last object with variants (`last_variant`, not initialised at first), `len` the number of
objects. Simplification: `abs` is that of `double`; with the one of `int` nothing changes, since the difference is
either below 0.1 or an integer. -/
def variantsLoop (step : FV) (seed len : Nat) : Nat → List Nat → FV → Option (Nat × Nat) → Out Picked
  | _, [], sum, last =>
    let diff := FV.sub f64 (FV.ofInt f64 seed) sum
    let tenth := FV.ofQ f64 (1 / 10)
    if FV.lt tenth diff || FV.lt tenth diff.neg then .abort
    else
      match last with
      | none => .ub .nullDeref
      | some l => .ok ⟨len - 1, l.1, l.2 - 1⟩
  | place, c :: cs, sum, last =>
    if c = 0 then variantsLoop step seed len (place + 1) cs sum last
    else
      match variantLoop step seed c 0 sum with
      | (some i, _) => .ok ⟨place, place, i⟩
      | (none, sum') => variantsLoop step seed len (place + 1) cs sum' (some (place, c))

/-- t/320 65-108 (and 49-63): `VariantPicker`, from what `GetVariantCount()` returns for each of the objects (0 if disabled).
Simplification: the counts add up to an `int`. -/
def variantPicker (counts : List Nat) (seed : UInt8) : Out Picked :=
  variantsLoop (FV.div f64 (.fin 255) (FV.ofInt f64 counts.sum)) seed.toNat counts.length 0 counts (.fin 0) none

/-! ## `WeightedRefPicker` (lines 140-188) -/

/-- t/320 173-187: the loop and what follows it. `place` is the place of the next reference, `len` the number of them.
`back()` of an empty vector is undefined. -/
def weightedLoop (step : FV) (c len : Nat) : Nat → List Int → FV → Out Nat
  | _, [], sum =>
    let diff := FV.sub f64 (FV.ofInt f64 c) sum
    let tenth := FV.ofQ f64 (1 / 10)
    if FV.lt tenth diff || FV.lt tenth diff.neg then .abort
    else if len = 0 then .ub .oob else .ok (len - 1)
  | place, w :: ws, sum =>
    let sum' := FV.add f64 sum (FV.mul f64 step (FV.ofInt f64 w))
    if FV.le (FV.ofInt f64 c) sum' then .ok place else weightedLoop step c len (place + 1) ws sum'

/-- t/320 159-188: `WeightedRefPicker::pick`, from the weights (`char`s): the place of the reference it returns.
Simplifications: as for `variantPicker`. -/
def weightedPick (weights : List Int) (c : UInt8) : Out Nat :=
  weightedLoop (FV.div f64 (.fin 255) (FV.ofInt f64 weights.sum)) c.toNat weights.length 0 weights (.fin 0)

/-! ## The recursion (lines 205-377) -/

section
variable {β : Type} [BlobLike β]

/-- `try { … } catch (OutOfData) { … }` [t/320-galley-recursion-experiments.cpp 257-377] -/
def M.catchOOD {σ α : Type} (m : M σ α) (h : M σ α) : M σ α := fun s =>
  match m s with
  | (.outOfData, s') => h s'
  | r => r

/-- Do something with another blob, leaving this one as it is. [t/320-galley-recursion-experiments.cpp 257-300] -/
def M.onOther {α : Type} (other : β) (m : M β α) : M β α := fun b => ((m other).1, b)

/-- t/320 207. -/
def recOps : List Bytes := [str "+", str "-", str "*", str "/", str "^"]

/-- `StampArithm<unsigned …>::ExtractValue` as a number. [stamp_arithm.h 42-48] -/
def unsignedV (t : ArithTy) : M β Nat := do
  let v ← extractValue t
  match v with
  | .int i => pure i.toNat
  | .bits b => pure b

/-- t/320 331-377 `GalleySimpleRecusion::do_recursion`, and 257-300 `TestRNode1::do_recursion`, which it calls: the
galley has only this node. The first argument bounds the depth of the calls. The two operands are made from different
blobs and the node's `variant_selected` is copied before, so it does not matter which of them C++ makes first.
Simplifications: what is printed on the way is left out; so are the other two nodes, which are commented out of the
galley. -/
def experiment : Nat → M β Bytes
  | 0 => M.out .fuel
  | n + 1 => do
    let c ← M.catchOOD (do let c ← unsignedV .u8; pure (some c)) (pure none)
    match c with
    | none => pure (str "0")
    | some c =>
      let p ← M.lift (variantPicker [recOps.length] (UInt8.ofNat c))
      let b ← M.get
      if size b < 6 then M.catchOOD (extractArithStr .u8) (pure (str "Q"))
      else do
        let spl ← M.catchOOD (do let v ← unsignedV .u16; pure (some v)) (pure none)
        match spl with
        | none => pure (str "Z")
        | some spl =>
          let b ← M.get
          let sizes ← M.lift (fitSizes [spl, 65535 - spl] (toSz ((size b : Int) - 4) % 4294967296))
          let s0 ← M.lift (vecGet sizes 0)
          let left ← chop ((s0 + 2) % 4294967296)
          let op ← M.lift (vecGet recOps p.variant)
          let x ← M.onOther left (experiment n)
          let y ← experiment n
          pure (str "(" ++ x ++ str " " ++ op ++ str " " ++ y ++ str ")")

end
end BS
