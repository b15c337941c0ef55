import Verif.Spec.Galley

/-!
# Specification vocabulary: what the oracles ask for

README.md 361-400: a galley gives every stamp its minimum, and shares the rest of the data out in the ratio
of each oracle to the sum of all oracles; a set first divides the rest between the variated and the
unbounded stamps.
-/

namespace BS

/-- The first `n` numbers of two bytes each, low byte first. -/
def lePairs : Nat → Bytes → List Nat
  | n + 1, x :: y :: rest => (x.toNat + 256 * y.toNat) :: lePairs n rest
  | _, _ => []

/-- The weights that `n` oracles stand for: the oracles, or all alike if all of them are zero. -/
def weightsOf (n : Nat) (bs : Bytes) : List Nat :=
  if (lePairs n bs).sum = 0 then List.replicate n 1 else lePairs n bs

/-- The part of `rest` due to the weights `ws`, out of all weights. -/
def dueOf (all ws : List Nat) (rest : Nat) : ℚ := (rest : ℚ) * ws.sum / all.sum

/-! ## Sets -/

/-- The oracles of the unbounded stamps of a set, 65535 for one that has none; 0 for all other stamps. -/
def unbAsks (ss : List SizePair) (bs : Bytes) : List Nat :=
  List.zipWith (fun s o => if s.2 = -1 then o.getD 65535 else 0) ss (setOracles ss bs)

/-- The weights of the unbounded stamps of a set: all alike if all oracles are zero. -/
def unbWeights (ss : List SizePair) (bs : Bytes) : List Nat :=
  if (unbAsks ss bs).sum = 0 then ss.map fun s => if s.2 = -1 then 65535 else 0 else unbAsks ss bs

/-- The weights of the variated stamps of a set: the oracle times the bytes that the stamp takes beyond its
minimum; 0 for all other stamps. -/
def varWeights (ss : List SizePair) (bs : Bytes) : List Nat :=
  List.zipWith (fun s o => if IsVariated s then (slack s).toNat * o.getD 0 else 0) ss (setOracles ss bs)

/-- What the oracles of the variated stamps ask for: of every stamp's range the oracle's part. -/
def varAsk (ss : List SizePair) (bs : Bytes) : ℚ := ((varWeights ss bs).sum : ℚ) / 65535

/-- The most the variated stamps get of `avail` bytes: what they take; and when there are unbounded stamps as well,
the part that the first oracle gives them. -/
def varLimit (ss : List SizePair) (bs : Bytes) (avail : Nat) : ℚ :=
  min (min avail ((ss.map slack).sum : Int))
    (if (∃ s ∈ ss, IsVariated s) ∧ (∃ s ∈ ss, s.2 = -1) then (avail : ℚ) * (lePairs 1 bs).sum / 65535 else avail)

/-- What the pieces of the stamps of a kind have beyond the minima. -/
def extraOf (kind : SizePair → Prop) [DecidablePred kind] (ss : List SizePair) (parts : List Bytes) : Int :=
  (List.zipWith (fun s p => if kind s then (p.length : Int) - s.1 else 0) ss parts).sum

end BS
