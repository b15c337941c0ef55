import Verif.Galley
import Verif.Spec.Blob
import Mathlib.Data.List.Forall2

/-!
# Specification vocabulary for galleys

A galley is applied to a blob and hands out pieces; a stamp is known by `minSize()` and
`maxSize()`.
-/

namespace BS

/-- A vector galley over a stamp with these sizes, applied to `b`, ends with `o` and leaves `b'`. -/
def VecSplits (mn mx : Int) (b : Blob) (o : Out (List Blob)) (b' : Blob) : Prop :=
  ∃ N, ∀ n ≥ N, vecSplit n mn mx b = (o, b')

/-- It returns pieces holding `parts`, and leaves the blob holding `left`. -/
def VecReturns (mn mx : Int) (b : Blob) (parts : List Bytes) (left : Bytes) : Prop :=
  ∃ ps b', VecSplits mn mx b (.ok ps) b' ∧ List.Forall₂ Holds ps parts ∧ Holds b' left

/-- It throws `OutOfData`, and leaves the blob holding `left`. -/
def VecThrows (mn mx : Int) (b : Blob) (left : Bytes) : Prop :=
  ∃ b', VecSplits mn mx b .outOfData b' ∧ Holds b' left

/-- It never ends. -/
def VecDiverges (mn mx : Int) (b : Blob) : Prop := ∀ n, (vecSplit n mn mx b).1 = .fuel

/-- A set galley over stamps with these sizes returns pieces holding `parts`. -/
def SetReturns (ss : List SizePair) (b : Blob) (parts : List Bytes) (left : Bytes) : Prop :=
  ∃ ps b', setSplit ss b = (.ok ps, b') ∧ List.Forall₂ Holds ps parts ∧ Holds b' left

/-- A set galley has undefined behaviour. -/
def SetUndefined (ss : List SizePair) (b : Blob) : Prop := ∃ r b', setSplit ss b = (.ub r, b')

/-- A set galley throws `OutOfData`. -/
def SetThrows (ss : List SizePair) (b : Blob) (left : Bytes) : Prop :=
  ∃ b', setSplit ss b = (.outOfData, b') ∧ Holds b' left

/-! ## The set galley's input -/

/-- The stamp is neither of fixed size nor unbounded. -/
def IsVariated (s : SizePair) : Prop := s.1 ≠ s.2 ∧ s.2 ≠ -1

instance (s : SizePair) : Decidable (IsVariated s) := inferInstanceAs (Decidable (_ ∧ _))

/-- What a list over a stamp of sizes `mn` and `mx` needs: one piece, and two bytes of oracle for it if the stamp
is variated, four if it is unbounded. -/
def vecNeeds (mn mx : Int) : Int := mn + (if mn = mx then 0 else if mx = -1 then 4 else 2)

/-- What a set of stamps with these sizes needs: the minima, two bytes for the size of each variated stamp,
two for each unbounded stamp if there are several, and two more if there are stamps of both kinds. -/
def setNeeds (ss : List SizePair) : Int :=
  (ss.map Prod.fst).sum + 2 * (ss.filter fun s => decide (IsVariated s)).length +
    (if 2 ≤ (ss.filter fun s => decide (s.2 = -1)).length then 2 * (ss.filter fun s => decide (s.2 = -1)).length else 0) +
    (if (∃ s ∈ ss, IsVariated s) ∧ (∃ s ∈ ss, s.2 = -1) then 2 else 0)

/-- The most such a set uses: `-1` if a stamp is unbounded, otherwise the maxima and two bytes for the size of
each variated stamp. -/
def setTakes (ss : List SizePair) : Int :=
  if ∃ s ∈ ss, s.2 = -1 then -1
  else (ss.map Prod.snd).sum + 2 * (ss.filter fun s => decide (IsVariated s)).length

/-- How much longer than its minimum a stamp's data may be. -/
def slack (s : SizePair) : Int := if s.2 = -1 then 0 else s.2 - s.1

/-- Stamps that report sensible sizes whose totals are `int`s. -/
structure SetSizes (ss : List SizePair) : Prop where
  sizes : ∀ s ∈ ss, 0 ≤ s.1 ∧ (s.2 = -1 ∨ (s.1 ≤ s.2 ∧ s.2 ≤ INT_MAX))
  total : (ss.map Prod.fst).sum + 2 * (ss.length + 1) ≤ INT_MAX
  widths : (ss.map slack).sum ≤ INT_MAX

/-- The oracle of every stamp, in order: none for a stamp of fixed size, none for an unbounded stamp
without another one; otherwise the next two bytes, low byte first. -/
def stampOracles (several : Bool) : List SizePair → Bytes → List (Option Nat)
  | [], _ => []
  | s :: ss, bs =>
    if s.1 = s.2 ∨ (s.2 = -1 ∧ several = false) then none :: stampOracles several ss bs
    else match bs with
      | x :: y :: rest => some (x.toNat + 256 * y.toNat) :: stampOracles several ss rest
      | _ => none :: stampOracles several ss []

/-- The oracles of the stamps of a set. When there are variated and unbounded stamps, the first two
bytes are the oracle that divides the data between the two kinds. -/
def setOracles (ss : List SizePair) (bs : Bytes) : List (Option Nat) :=
  stampOracles (decide (1 < ss.countP (fun s => s.2 = -1))) ss
    (if (∃ s ∈ ss, IsVariated s) ∧ (∃ s ∈ ss, s.2 = -1) then bs.drop 2 else bs)

/-- All unbounded stamps read the oracle 0 (the code then treats them all alike). -/
def UnbAllZero (ss : List SizePair) (bs : Bytes) : Prop :=
  ∀ s o, (s, o) ∈ ss.zip (setOracles ss bs) → s.2 = -1 → o = some 0

/-- Not all variated stamps read the oracle 0. -/
def SomeVarPos (ss : List SizePair) (bs : Bytes) : Prop :=
  (∃ s ∈ ss, IsVariated s) → ∃ s o, (s, some o) ∈ ss.zip (setOracles ss bs) ∧ IsVariated s ∧ o ≠ 0

/-- A stamp that accepts no data reads the oracle 0. -/
def SomeBare (ss : List SizePair) (bs : Bytes) : Prop :=
  ∃ s, (s, some 0) ∈ ss.zip (setOracles ss bs) ∧ s.1 = 0 ∧ ¬ (s.2 = -1 ∧ UnbAllZero ss bs)

/-- Oracles for which the galley works: not all variated stamps read 0, and a stamp that reads 0 has
a byte to spare. -/
structure SetOraclesOk (ss : List SizePair) (bs : Bytes) : Prop where
  some_pos : SomeVarPos ss bs
  spare : ¬ SomeBare ss bs

end BS
