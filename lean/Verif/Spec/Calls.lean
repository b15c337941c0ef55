import Verif.Calls

/-!
# How many calls a size query makes
-/

namespace BS

/-- A query of stamp `i` returns, changes no flag and makes exactly `c` calls of `minSize()` and `maxSize()`, itself
included. -/
def Costs (G : Graph) (fl : Flags) (sel : Sel) (i : Id) (c : Nat) : Prop :=
  ∃ N, ∀ n ≥ N, ∃ v, sizeC G n sel i (fl, 0) = (.ok v, (fl, c))

/-- The query needs no more than `n` nested calls. -/
def Deep (G : Graph) (fl : Flags) (sel : Sel) (i : Id) (n : Nat) : Prop := (sizeC G n sel i (fl, 0)).1 ≠ .fuel

/-- No stamp has more than `w` stamps of its own to ask. -/
def Narrow (w : Nat) (G : Graph) : Prop :=
  ∀ i nd, G i = some nd → match nd with
    | .set cs _ _ | .seq cs _ _ => cs.length ≤ w
    | .picker pool => pool.length ≤ w
    | _ => True

/-- The stamps have numbers below `m`. -/
def Stamps (m : Nat) (G : Graph) : Prop := ∀ i nd, G i = some nd → i < m

/-- Lists of lists: stamp 0 is a byte, stamp `d + 1` a list of stamp `d`. -/
def nestGraph : Graph
  | 0 => some (.arith .u8)
  | d + 1 => some (.vec d (fun l => l.flatten))

/-- `k` pickers, each of which may pick any of them, or a byte (stamp `k`). -/
def cliqueGraph (k : Nat) : Graph := fun i =>
  if i < k then some (.picker (List.range k ++ [k])) else if i = k then some (.arith .u8) else none

end BS
