import Verif.Spec.Wiring
import Verif.Spec.Fixed
import Verif.Spec.Galley

/-!
# Grammars with operators of two operands that need no more than they ask for
-/

namespace BS

/-- The stamp leaves to the next one whatever exceeds its `minSize()`: one of the leaves that do, or a stamp that takes
exactly so much by its make-up. -/
def LeavesRest (G : Graph) (fl : Flags) (i : Id) (m : Int) : Prop :=
  (∃ nd, G i = some nd ∧ nd.Frugal) ∨ (Fresh G fl ∧ ∃ n : Nat, ExactStamp G i n ∧ (n : Int) = m)

/-- Grammars of all kinds of stamps, recursive or not, with operators of two operands and sets, whose stamps report
the sizes `mn` and `mx`, and in which for blobs of up to `L` bytes as many bytes as `minSize()` should be enough.
Lists and structures are as in `Plentiful`. The stamps of a set are of fixed size or unbounded, and at most two of
them are unbounded. A lottery and a picker have a stamp that needs no more than what they ask for. -/
structure Ample (G : Graph) (fl : Flags) (L : Nat) (mn mx : Id → Int) : Prop where
  guarded : Guarded G
  closed : ∀ i nd, G i = some nd → ∀ j, j ∈ nd.plainKids ∨ j ∈ nd.choices → G j ≠ none
  small : L < INT_MAX / 2
  sizes : ∀ i, G i ≠ none → HasMin G fl i (mn i) ∧ HasMax G fl i (mx i) ∧ 0 ≤ mn i ∧ mn i ≤ INT_MAX ∧
    -1 ≤ mx i ∧ mx i ≤ INT_MAX
  dict : ∀ i ws, G i = some (.dict ws) → ws ≠ [] ∧ ws.length ≤ 2 ^ 53
  user : ∀ i u, G i = some (.user u) → ∀ bs, u.mn ≤ (bs.length : Int) → ∃ s, (u.behave bs).1 = .ok s
  vec : ∀ i c join, G i = some (.vec c join) → mn c + 4 ≤ INT_MAX ∧
    ((mx c = -1 ∧ L ≤ 3000000 ∧ ((L : Int) - 2) / (mn c + 2) ≤ 32768) ∨ (mn c ≤ mx c ∧ 1 ≤ mx c))
  set : ∀ i cs join unb, G i = some (.set cs join unb) → (∀ c ∈ cs, mx c = mn c ∨ mx c = -1) ∧
    (cs.filter fun c => decide (mx c = -1)).length ≤ 2 ∧ (cs.map mn).sum + 2 * (cs.length + 1) ≤ INT_MAX ∧
    cs.length * (L + 1) ≤ 2 ^ 49
  seq : ∀ i cs join unb, G i = some (.seq cs join unb) → (∀ j ∈ cs.dropLast, LeavesRest G fl j (mn j)) ∧
    (cs.map mn).sum ≤ INT_MAX
  lottery : ∀ i r l w smin smax, G i = some (.lottery r l w smin smax) →
    (w = 1 ∨ w = 2 ∨ w = 4 ∨ w = 8) ∧ l.length ≤ 2 ^ 53 ∧ mn i = smin + w ∧ (∃ j ∈ l, mn j ≤ smin) ∧
    ∀ j ∈ l, mn j + mx j ≤ INT_MAX
  picker : ∀ i pool, G i = some (.picker pool) → pool.length ≤ 2 ^ 53 ∧ ∃ j ∈ pool, mn j + 2 ≤ mn i

/-- `minSize()` of stamp `i` returns `m`, and `ExtractStr` returns a string for every blob of at least `m` and at most
`L` bytes. -/
def Ready (G : Graph) (fl : Flags) (L : Nat) (i : Id) (m : Int) : Prop :=
  HasMin G fl i m ∧ ∀ b bs, Reachable b → Holds b bs → m ≤ (bs.length : Int) → bs.length ≤ L →
    ∃ s left, Returns G fl i b s left

end BS
